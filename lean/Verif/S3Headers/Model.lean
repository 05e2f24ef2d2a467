import Verif.S3Parts.Codec

/-!
# The cache of the headers of data files in S3 mode

In S3 mode the header of a data file holds a word for each part of the file.  The headers are kept in buffers in shared
memory; they are read and changed without locks, while other processes load another header into the buffer
(src/s3/headers.c).

One group of buffers is modelled, with any number of buffers, words and processes; the other groups hold other headers.
Every access to shared memory that can be seen by others is one step.  Simplified: the local variables of the holder of
a lock are kept with the lock; a word is the record `Part` of `Verif.S3Parts`; any buffer may be the victim (usage counts
are not modelled); the change count does not wrap around; the wait for a lock before a repeated search is left out (the
search may be repeated at any time); what is read from a missing file does not change
(`checkpoint_state->lastCheckpointNumber`).
-/

namespace Verif.S3Headers

open Verif.S3Parts (Part Status)

/-- A word of a buffer: the value, the change count and the dirty bit (`S3_PART_MAKE`, src/s3/headers.c:95-107).  `tag`
is the header it belongs to; it is not in the code and no step depends on it. -/
structure Cell where
  val : Part
  cnt : Nat
  dirty : Bool
  tag : Option Nat

/-- What the holder of `bufferCtlLock` does.  `bump`, `swap`, `rdf`, `exch`, `fin`: `change_buffer` to the header given
(none: to no header, from `check_unlink_file`), before the first change of the count, before the change of the tags,
before the header is read, before word `k` is exchanged (with the new values, their dirty bit, the old values and
whether one was dirty), before the shadow tag is cleared (src/s3/headers.c:272-383).  `sync`: `sync_buffer`, before word
`k` (954-978). -/
inductive Job where
  | free
  | bump (new : Option Nat)
  | swap (new : Option Nat)
  | rdf
  | exch (nv : Nat → Part) (nd : Bool) (k : Nat) (old : Nat → Part) (d : Bool)
  | fin
  | sync (k : Nat) (old : Nat → Part) (d : Bool)

/-- `S3HeaderBuffer` (src/s3/headers.c:71-79). -/
structure Buf where
  tag : Option Nat
  shadow : Option Nat
  cnt : Nat
  cell : Nat → Cell
  job : Job

/-- The holder of `groupCtlLock`: searching for header `t` at buffer `u` (`load_header_buffer`, src/s3/headers.c:395-429);
having found the buffer (`check_unlink_file`, 448-469); in `change_buffer` up to the release (272-309). -/
inductive Grp where
  | free
  | scan (t u : Nat)
  | want (v : Nat)
  | chg (v : Nat)

/-- `s3_header_read_value` or `s3_header_compare_and_swap` (src/s3/headers.c:480, 571). -/
inductive Op where
  | read
  | cas (old new : Part)

/-- A process that reads or changes word `i` of header `t`: it has read the change count `c` of buffer `v`
(src/s3/headers.c:497, 590); it has compared the tag again (502, 596); it has compared the count again (507, 601); it
will compare and exchange, having read the value `old` and the dirty bit (604, 626).  The first comparison of the tag
(494, 587) picks the buffer only. -/
inductive Rd where
  | idle
  | cnt (t i : Nat) (op : Op) (v c : Nat)
  | tag (t i : Nat) (op : Op) (v c : Nat)
  | chk (t i : Nat) (op : Op) (v c : Nat)
  | xchg (t i : Nat) (old new : Part) (v c : Nat) (d : Bool)

/-- What the functions did: `s3_header_read_value` returned `x`; the compare-and-swap succeeded; it returned false
after the comparison (src/s3/headers.c:618-622), or after the failed exchange (639-640), with `*oldValue = x`; the file
was unlinked, having been of `size` parts (367). -/
inductive Ev where
  | read (t i : Nat) (x : Part)
  | done (t i : Nat) (old new : Part)
  | no (t i : Nat) (x : Part)
  | lost (t i : Nat) (x : Part)
  | unlink (t size : Nat)
deriving DecidableEq

/-- The number of buffers in the group and of words in a header (src/s3/headers.c:33-35); what `read_from_file` gives
for a missing or empty file, and whether it is dirty then (221-235). -/
structure Par where
  n : Nat
  m : Nat
  fresh : Nat → Nat → Part
  freshDirty : Nat → Bool

/-- The state: shared memory, the headers in the files (none: the file is missing or empty), the processes that read,
and what has been done, the last first. -/
structure World where
  grp : Grp
  buf : Nat → Buf
  file : Nat → Option (Nat → Part)
  rd : Nat → Rd
  log : List Ev

/-- A word of zeros (src/s3/headers.c:318). -/
def zero : Part := ⟨0, .notLoaded, false, false, false, 0⟩

/-- `s3_headers_shmem_init`: src/s3/headers.c:164-176.  The files are those of the last run. -/
def init (f0 : Nat → Option (Nat → Part)) : World :=
  ⟨.free, fun _ => ⟨none, none, 0, fun _ => ⟨zero, 0, false, none⟩, .free⟩, f0, fun _ => .idle, []⟩

/-- What happens next.  `look` … `xchg`: the steps of a process that reads, see `Rd`; a tag compared while the count is
odd may be half written, `torn` is the outcome then.  `load`, `seek`, `pick`: `load_header_buffer`, with the victim.
`unl`, `lock`: `check_unlink_file`.  `sync`: `sync_buffer` begins.  `go`: the next step of the holder of the lock of a
buffer; `size`: the length of the file in parts, rounded up.  `fatal`: the holder fails in `read_from_file`
(src/s3/headers.c:211-214, 236-239) or in `write_to_file` (255-258).  `lose`: `pg_pwrite` fails in `write_to_file`
(261-264). -/
inductive Act where
  | look (p t i : Nat) (op : Op) (v : Nat)
  | tag (p : Nat) (torn : Bool)
  | chk (p : Nat)
  | value (p : Nat)
  | xchg (p : Nat)
  | load (t : Nat)
  | seek
  | pick (v : Nat)
  | unl (t v : Nat)
  | lock
  | sync (v : Nat)
  | go (v size : Nat)
  | fatal (v : Nat)
  | lose (v : Nat)

/-- Change one value of a function. (No counterpart in the code.) -/
def set {α : Type} (f : Nat → α) (x : Nat) (a : α) : Nat → α := fun y => if y = x then a else f y

/-- The state with another buffer `v`. (No counterpart in the code.) -/
def World.put (w : World) (v : Nat) (b : Buf) : World := { w with buf := set w.buf v b }

/-- The state with process `p` elsewhere. (No counterpart in the code.) -/
def World.at (w : World) (p : Nat) (r : Rd) : World := { w with rd := set w.rd p r }

/-- The state with one more event. (No counterpart in the code.) -/
def World.say (w : World) (e : Ev) : World := { w with log := e :: w.log }

/-- The words in the file.  `read_from_file`: src/s3/headers.c:199-241. -/
def fileVal (P : Par) (file : Nat → Option (Nat → Part)) (t j : Nat) : Part :=
  match file t with
  | some f => f j
  | none => P.fresh t j

/-- `dirty` of `read_from_file`: src/s3/headers.c:220-234. -/
def fileDirty (P : Par) (file : Nat → Option (Nat → Part)) (t : Nat) : Bool :=
  match file t with
  | some _ => false
  | none => P.freshDirty t

/-- `haveLoadedPart` of a word: src/s3/headers.c:330-336, 357-358. -/
def keep (size j : Nat) (x : Part) : Bool :=
  match x.st with
  | .loading => true
  | .evicting => true
  | .loaded => decide (0 < x.locks) || decide (j < size)
  | .notLoaded => decide (0 < x.locks)

/-- `haveLoadedPart` of the first `k` words: src/s3/headers.c:322-340, 357-358. -/
def keepAny (size : Nat) (old : Nat → Part) : Nat → Bool
  | 0 => false
  | k + 1 => keepAny size old k || keep size k (old k)

/-- The end of `change_buffer` before the shadow tag is cleared: src/s3/headers.c:342-373.  The previous tag is the
shadow tag. -/
def save (P : Par) (w : World) (v size : Nat) (old : Nat → Part) (d : Bool) : World :=
  let b := w.buf v
  let w' := w.put v { b with job := .fin }
  match b.shadow with
  | none => w'
  | some s =>
    if b.tag.isNone && !keepAny size old P.m then { w'.say (.unlink s size) with file := set w.file s none }
    else if d then { w' with file := set w.file s (some old) }
    else w'

/-- The end of `sync_buffer`: src/s3/headers.c:973-977. -/
def syncEnd (w : World) (v : Nat) (old : Nat → Part) (d : Bool) : World :=
  let b := w.buf v
  let w' := w.put v { b with job := .free }
  match b.tag with
  | none => w'
  | some t => if d then { w' with file := set w.file t (some old) } else w'

/-- A step of the holder of the lock of buffer `v`: `change_buffer` (src/s3/headers.c:272-383), `sync_buffer`
(954-978). -/
def go (P : Par) (w : World) (v size : Nat) : Option World :=
  let b := w.buf v
  match b.job with
  | .free => none
  | .bump new => some (w.put v { b with cnt := b.cnt + 1, job := .swap new })
  | .swap new =>
    some { w.put v { b with tag := new, shadow := b.tag, cnt := b.cnt + 1, job := .rdf } with grp := .free }
  | .rdf =>
    match b.tag with
    | some t => some (w.put v { b with job := .exch (fileVal P w.file t) (fileDirty P w.file t) 0 (fun _ => zero) false })
    | none => some (w.put v { b with job := .exch (fun _ => zero) false 0 (fun _ => zero) false })
  | .exch nv nd k old d =>
    if k < P.m then
      let c := b.cell k
      some (w.put v { b with cell := set b.cell k ⟨nv k, b.cnt, nd, b.tag⟩,
                             job := .exch nv nd (k + 1) (set old k c.val) (d || c.dirty) })
    else some (save P w v size old d)
  | .fin => some (w.put v { b with shadow := none, job := .free })
  | .sync k old d =>
    if k < P.m then
      let c := b.cell k
      some (w.put v { b with cell := set b.cell k { c with dirty := false }, job := .sync (k + 1) (set old k c.val) (d || c.dirty) })
    else some (syncEnd w v old d)

/-- One step; none: it is not possible now, or it waits. -/
def step (P : Par) (w : World) : Act → Option World
  | .look p t i op v =>
    match w.rd p with
    | .idle => if v < P.n ∧ i < P.m then some (w.at p (.cnt t i op v (w.buf v).cnt)) else none
    | _ => none
  | .tag p torn =>
    match w.rd p with
    | .cnt t i op v c =>
      let b := w.buf v
      if (if b.cnt % 2 = 1 then torn else decide (b.tag = some t)) then some (w.at p (.tag t i op v c))
      else some (w.at p .idle)
    | _ => none
  | .chk p =>
    match w.rd p with
    | .tag t i op v c => if (w.buf v).cnt = c then some (w.at p (.chk t i op v c)) else some (w.at p .idle)
    | _ => none
  | .value p =>
    match w.rd p with
    | .chk t i op v c =>
      let x := (w.buf v).cell i
      if x.cnt ≠ c then some (w.at p .idle)
      else match op with
        | .read => some ((w.at p .idle).say (.read t i x.val))
        | .cas old new =>
          if x.val ≠ old then some ((w.at p .idle).say (.no t i x.val))
          else some (w.at p (.xchg t i old new v c x.dirty))
    | _ => none
  | .xchg p =>
    match w.rd p with
    | .xchg t i old new v c d =>
      let b := w.buf v
      let x := b.cell i
      if x.val = old ∧ x.cnt = c ∧ x.dirty = d then
        some (((w.put v { b with cell := set b.cell i { x with val := new, dirty := true } }).at p .idle).say (.done t i old new))
      else some ((w.at p .idle).say (.lost t i x.val))
    | _ => none
  | .load t =>
    match w.grp with
    | .free => some { w with grp := .scan t 0 }
    | _ => none
  | .seek =>
    match w.grp with
    | .scan t u =>
      if u < P.n then
        let b := w.buf u
        if b.tag = some t then some { w with grp := .free }
        else if b.shadow = some t then
          match b.job with
          | .free => some { w with grp := .scan t (u + 1) }
          | _ => none
        else some { w with grp := .scan t (u + 1) }
      else none
    | _ => none
  | .pick v =>
    match w.grp with
    | .scan t u =>
      if u = P.n ∧ v < P.n then
        match (w.buf v).job with
        | .free => some { w.put v { w.buf v with job := .bump (some t) } with grp := .chg v }
        | _ => none
      else none
    | _ => none
  | .unl t v =>
    match w.grp with
    | .free => if v < P.n ∧ (w.buf v).tag = some t then some { w with grp := .want v } else none
    | _ => none
  | .lock =>
    match w.grp with
    | .want v =>
      match (w.buf v).job with
      | .free => some { w.put v { w.buf v with job := .bump none } with grp := .chg v }
      | _ => none
    | _ => none
  | .sync v =>
    if v < P.n then
      match (w.buf v).job with
      | .free => some (w.put v { w.buf v with job := .sync 0 (fun _ => zero) false })
      | _ => none
    else none
  | .go v size => if v < P.n then go P w v size else none
  | .fatal v =>
    if v < P.n then
      match (w.buf v).job with
      | .rdf => some (w.put v { w.buf v with job := .free })
      | .exch _ _ k _ _ => if k < P.m then none else some (w.put v { w.buf v with job := .free })
      | _ => none
    else none
  | .lose v =>
    if v < P.n then
      match (w.buf v).job with
      | .exch _ _ k _ true => if k < P.m then none else some (w.put v { w.buf v with job := .fin })
      | .sync k _ true => if k < P.m then none else some (w.put v { w.buf v with job := .free })
      | _ => none
    else none

/-- Does `s3_header_mark_part_scheduled_for_write` return false when it is given this value?  src/s3/headers.c:848-852. -/
def schedEnds (x : Part) : Bool := !x.dirty || x.sched

/-- Steps in a row. (No counterpart in the code.) -/
def run (P : Par) (w : World) : List Act → Option World
  | [] => some w
  | a :: as => match step P w a with
    | none => none
    | some w' => run P w' as

end Verif.S3Headers
