/-
The undo log and its files: ring, dirty marks, file cache and disk; records,
changes in place, eviction, and the flush at a checkpoint
(src/transam/undo.c, src/utils/o_buffers.c).

One undo log.  A location holds one number.  Which locations may be reserved,
written or given up at what time is the subject of `Verif/UndoLog`
(C23, C52-C54); here it is taken from there as guards of the steps.

Simplified throughout:
 * filling a record and releasing its location is one step: nobody needs the
   record before, and its pages are marked dirty before;
 * a change in place (`undo_write`) of one location is one step (the store comes
   before the mark, and the flush waits for the changes begun before it);
 * eviction is done page by page under `undoWriteLock`; here `writtenLocation` is
   raised after each page and not after the last one: nobody looks at it in
   between but readers, who find the same in the ring and in the file;
 * the file cache is the function `file` with a dirty mark per page: for a page
   that is not in the cache it agrees with the disk.  A buffer may be written
   back or dropped at any time.
-/

namespace Verif.UndoFlush

/-- `ORIOLEDB_BLCKSZ` and the number of pages of the ring, `UNDO_BUFFER_NPAGES`
(src/transam/undo.c:223-225). -/
structure Cfg where
  page : Nat
  pages : Nat
  hpage : 0 < page
  hpages : 0 < pages

/-- `o_undo_circular_sizes[undoType]`, a multiple of a page
(src/transam/undo.c:1713). -/
def Cfg.size (c : Cfg) : Nat := c.page * c.pages

/-- `UNDO_PAGE_INDEX` (src/transam/undo.c:227-229). -/
def Cfg.index (c : Cfg) (x : Nat) : Nat := (x % c.size) / c.page

/-- Where the checkpointer is: not in a flush; has read the range to be flushed
(src/checkpoint/checkpoint.c:1763, 1904); in `flush_dirty_undo_range` with the
reserved location `m`, the next page and the number of pages left; in
`o_buffers_sync`; finished. -/
inductive Ck where
  | idle
  | wait (lo hi : Nat)
  | flush (lo hi m pg k : Nat)
  | sync (lo hi pg k : Nat)
  | done (lo hi : Nat)
deriving DecidableEq, Repr

/-- The state: `lastUsedLocation`, `writtenLocation`, the location everything
from which on is retained; ring; dirty bits; file as read through the cache,
dirty marks of its pages, disk; the records being filled (location, size); the
checkpointer; and, only observing: which locations belong to complete records,
the last value written to a location, and the values a location has had since
the flush began.  include/transam/undo.h:76-230, src/utils/o_buffers.c:34-44. -/
structure St where
  used : Nat
  written : Nat
  low : Nat
  ring : Nat → Nat
  bits : Nat → Bool
  file : Nat → Nat
  fdirty : Nat → Bool
  disk : Nat → Nat
  opened : List (Nat × Nat)
  ck : Ck
  done : Nat → Bool
  val : Nat → Nat
  seen : Nat → List Nat

/-- An empty log that starts at location `n`.
Auxiliary of the model, without counterpart in /repo. -/
def St.init (n : Nat) : St :=
  { used := n
    written := n
    low := n
    ring := fun _ => 0
    bits := fun _ => false
    file := fun _ => 0
    fdirty := fun _ => false
    disk := fun _ => 0
    opened := []
    ck := .idle
    done := fun _ => false
    val := fun _ => 0
    seen := fun _ => [] }

/-- Changes the value of a function at one place.
Auxiliary of the model, without counterpart in /repo. -/
def upd {α : Type} (f : Nat → α) (a : Nat) (v : α) : Nat → α :=
  fun b => if b = a then v else f b

/-- `mark_undo_range_dirty` (src/transam/undo.c:249-262): the pages of `n`
locations from `x` on (location by location). -/
def mark (c : Cfg) (bits : Nat → Bool) (x : Nat) : Nat → Nat → Bool
  | 0 => bits
  | n + 1 => upd (mark c bits x n) (c.index (x + n)) true

/-- `get_undo_record` (src/transam/undo.c:2155-2203): a record of `n` locations
is begun, its pages are marked; the space was reserved, so the ring has room
(C23).  When the record would go beyond the end of the ring, the space is
skipped. -/
def alloc (c : Cfg) (s : St) (n : Nat) : St :=
  if 0 < n ∧ s.used + n ≤ s.written + c.size then
    if (s.used + n) % c.size > s.used % c.size then
      { s with
          used := s.used + n
          bits := mark c s.bits s.used n
          opened := (s.used, n) :: s.opened }
    else { s with used := s.used + n }
  else s

/-- The values `vs` from location `l` on.  Auxiliary of the model, without counterpart in /repo. -/
def store (f : Nat → Nat) (l : Nat) (vs : List Nat) (x : Nat) : Nat :=
  if l ≤ x ∧ x < l + vs.length then vs.getD (x - l) 0 else f x

/-- The values `vs` from location `l` on are put into the ring.  src/transam/undo.c:3362-3460. -/
def ringStore (c : Cfg) (ring : Nat → Nat) (l : Nat) : List Nat → Nat → Nat
  | [] => ring
  | v :: vs => ringStore c (upd ring (l % c.size) v) (l + 1) vs

/-- The record at `l` is filled and its location released.  src/transam/undo.c:2239-2246. -/
def finish (c : Cfg) (s : St) (l : Nat) (vs : List Nat) : St :=
  if (l, vs.length) ∈ s.opened then
    { s with
        ring := ringStore c s.ring l vs
        opened := s.opened.erase (l, vs.length)
        done := fun x => decide (l ≤ x ∧ x < l + vs.length) || s.done x
        val := store s.val l vs
        seen := fun x =>
          if l ≤ x ∧ x < l + vs.length then vs.getD (x - l) 0 :: s.seen x else s.seen x }
  else s

/-- A change in place, `undo_write_internal` (src/transam/undo.c:3362-3458), in
the ring or, below `writtenLocation`, in the file. -/
def write (c : Cfg) (s : St) (x v : Nat) : St :=
  if s.done x = true ∧ s.low ≤ x then
    if s.written ≤ x then
      { s with
          ring := upd s.ring (x % c.size) v
          bits := upd s.bits (c.index x) true
          val := upd s.val x v
          seen := upd s.seen x (v :: s.seen x) }
    else
      { s with
          file := upd s.file x v
          fdirty := upd s.fdirty (x / c.page) true
          val := upd s.val x v
          seen := upd s.seen x (v :: s.seen x) }
  else s

/-- One page of `evict_undo_to_disk` (src/transam/undo.c:1938-1964), from
`writtenLocation` to `t`: a full page consumes the dirty bit, a part of a page
only looks at it; the buffer becomes dirty or clean accordingly
(`o_buffers_rw`, src/utils/o_buffers.c:390-394). -/
def evict (c : Cfg) (s : St) (t : Nat) : St :=
  if s.low ≤ s.written ∧ s.written < t ∧ t ≤ s.used ∧ t ≤ (s.written / c.page + 1) * c.page ∧
      s.opened.all (fun r => decide (t ≤ r.1)) = true then
    { s with
        file := fun x => if s.written ≤ x ∧ x < t then s.ring (x % c.size) else s.file x
        fdirty := upd s.fdirty (s.written / c.page) (s.bits (c.index s.written))
        bits :=
          if s.written % c.page = 0 ∧ t = (s.written / c.page + 1) * c.page then
            upd s.bits (c.index s.written) false
          else s.bits
        written := t }
  else s

/-- `writtenLocation` is raised to the retained location without writing
(src/transam/undo.c:670-686, 1875-1883). -/
def skip (s : St) : St :=
  if s.written < s.low then { s with written := s.low } else s

/-- Where the flush in progress starts: the checkpointer retains everything from
there on (src/checkpoint/checkpoint.c:1763-1765). -/
def Ck.lo : Ck → Option Nat
  | .wait lo _ => some lo
  | .flush lo _ _ _ _ => some lo
  | .sync lo _ _ _ => some lo
  | _ => none

/-- Everything below `l` is given up: no record that is being filled, and no
checkpoint in progress, is below.  src/transam/undo.c:568-757. -/
def raise (s : St) (l : Nat) : St :=
  if s.low ≤ l ∧ l ≤ s.used ∧ s.opened.all (fun r => decide (l ≤ r.1)) = true ∧
      s.ck.lo.all (fun lo => decide (l ≤ lo)) = true then
    { s with low := l }
  else s

/-- A dirty buffer is written back (src/utils/o_buffers.c:311-312, 493-502). -/
def writeBack (c : Cfg) (s : St) (pg : Nat) : St :=
  if s.fdirty pg = true then
    { s with
        disk := fun x => if x / c.page = pg then s.file x else s.disk x
        fdirty := upd s.fdirty pg false }
  else s

/-- A clean buffer is dropped (src/utils/o_buffers.c:295-307): the page is read
from the disk again. -/
def forget (c : Cfg) (s : St) (pg : Nat) : St :=
  if s.fdirty pg = false then
    { s with file := fun x => if x / c.page = pg then s.disk x else s.file x }
  else s

/-- The checkpointer reads the range to be flushed
(src/checkpoint/checkpoint.c:1763, 1904). -/
def ckRead (s : St) (lo : Nat) : St :=
  match s.ck with
  | .idle | .done _ _ => if s.low ≤ lo ∧ lo ≤ s.used then { s with ck := .wait lo s.used } else s
  | _ => s

/-- `fsync_undo_range` waits for the records below `hi`
(src/transam/undo.c:2129-2132) and begins `flush_dirty_undo_range` with
`minProcReservedLocation` = `m` (src/transam/undo.c:1724-1737).  The values from
here on are what is looked at in the end. -/
def ckFlush (c : Cfg) (s : St) (m : Nat) : St :=
  match s.ck with
  | .wait lo hi =>
    if m ≤ s.used ∧ s.opened.all (fun r => decide (m ≤ r.1 ∧ hi ≤ r.1)) = true then
      let lo1 := max lo s.written
      let first := lo1 / c.page
      let n := (hi + c.page - 1) / c.page - first
      { s with
          ck := .flush lo hi m first
            (if hi ≤ lo1 then 0 else if n * c.page > c.size then c.pages else n)
          seen := fun x => [s.val x] }
    else s
  | _ => s

/-- The page as assembled (src/transam/undo.c:1802-1815). -/
def staged (c : Cfg) (s : St) (x : Nat) : Nat :=
  if x < s.written then s.file x else s.ring (x % c.size)

/-- A page is assembled and written to the disk, and to its buffer if there is
one (src/transam/undo.c:1802-1833, src/utils/o_buffers.c:443-474). -/
def writePage (c : Cfg) (s : St) (pg : Nat) : St :=
  { s with
      file := fun x => if x / c.page = pg then staged c s x else s.file x
      fdirty := upd s.fdirty pg false
      disk := fun x => if x / c.page = pg then staged c s x else s.disk x }

/-- One page of `flush_dirty_undo_range` (src/transam/undo.c:1752-1834), under
`undoWriteLock`; `writtenLocation` does not change within a batch, so reading it
for each page is the same. -/
def flushPage (c : Cfg) (s : St) (m pg : Nat) : St :=
  if (pg + 1) * c.page ≤ s.written then s
  else if (pg + 1) * c.page ≤ m then
    if s.bits (c.index (pg * c.page)) = true then
      writePage c { s with bits := upd s.bits (c.index (pg * c.page)) false } pg
    else s
  else writePage c s pg

/-- The next step of the checkpointer: a page of the flush, then a page of
`o_buffers_sync` (src/utils/o_buffers.c:476-505, 539-557; here in the order of
the pages, there in the order of the buffers). -/
def ckGo (c : Cfg) (s : St) : St :=
  match s.ck with
  | .flush lo hi m pg (k + 1) => { flushPage c s m pg with ck := .flush lo hi m (pg + 1) k }
  | .flush lo hi _ _ 0 =>
    { s with ck := .sync lo hi (lo / c.page) ((hi + c.page - 1) / c.page - lo / c.page) }
  | .sync lo hi pg (k + 1) => { writeBack c s pg with ck := .sync lo hi (pg + 1) k }
  | .sync lo hi _ 0 => { s with ck := .done lo hi }
  | _ => s

/-- The steps.  The lines are given at the functions above. -/
inductive Op where
  | alloc (n : Nat)
  | finish (l : Nat) (vs : List Nat)
  | write (x v : Nat)
  | evict (t : Nat)
  | skip
  | raise (l : Nat)
  | writeBack (pg : Nat)
  | forget (pg : Nat)
  | ckRead (lo : Nat)
  | ckFlush (m : Nat)
  | ckGo
deriving DecidableEq, Repr

/-- One step.  The lines are given at the functions called. -/
def step (c : Cfg) (s : St) : Op → St
  | .alloc n => alloc c s n
  | .finish l vs => finish c s l vs
  | .write x v => write c s x v
  | .evict t => evict c s t
  | .skip => skip s
  | .raise l => raise s l
  | .writeBack pg => writeBack c s pg
  | .forget pg => forget c s pg
  | .ckRead lo => ckRead s lo
  | .ckFlush m => ckFlush c s m
  | .ckGo => ckGo c s

/-- A run.  Auxiliary of the model, without counterpart in /repo. -/
def run (c : Cfg) (s : St) : List Op → St
  | [] => s
  | op :: ops => run c (step c s op) ops

/-- What `undo_read` finds (src/transam/undo.c:3217-3284). -/
def found (c : Cfg) (s : St) (x : Nat) : Nat :=
  if x < s.written then s.file x else s.ring (x % c.size)

end Verif.UndoFlush
