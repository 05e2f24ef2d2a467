/-!
# The undo log: ring buffer, minimal locations, eviction, reading and writing

One undo log, any number of processes, interleaved at every access to shared memory; a copy of
several bytes takes a step per byte.  The file behind the ring is what a read through
`o_buffers` returns (`Verif/OBuffers`, property C28).  `enable_rewind` is off.
-/

namespace Verif.UndoLog

/-- Number of processes, `max_procs`; size of the ring, `o_undo_circular_sizes[undoType]`
(`src/transam/undo.c:196-212`). -/
structure Cfg where
  procs : Nat
  size : Nat

/-- Where a process is.

In `reserve_undo_size_extended` (`src/transam/undo.c:1976-2093`), having added `s` to
`advanceReservedLocation`, up to location `t`:
* `pending t s`: before the first comparison (`2031-2033`).
* `checking t s`: in `check_reserved_undo_location` (`2038-2050`).
* `ready t s m`, `ready2 t s m`: before the second and third comparison (`2053-2067`), `m` is
  `minProcReservedLocation` as read.
* `waiting t s`: waits for the write in progress (`2075-2076`).
* `wantEv t s m`: waits for `undoWriteLock` in `evict_undo_to_disk` (`1864`).
* `evicting t s`: in `evict_undo_to_disk`.

The background writer (`src/workers/bgwriter.c:183-200`): `bgWant target m`, `bgEv`.

In `get_undo_record` (`2155-2203`) for `n` bytes; `o`: `overwriteTransactionRetainUndoLoc`:
* `get0` … `get5`: in `set_my_reserved_location` (`1087-1140`).
* `alloc n`, `again n l`: before the first and before a later attempt (`2171-2178`), `l` is the
  location of the first.
* `panic`: not enough reserved (`2167-2169`).
* `fill loc n j`: `j` bytes of the record are filled; `made loc n`: all; the location is still
  reserved.

In `set_my_snapshot_retain_location` (`1143-1173`): `snap0` … `snap3`.

In `undo_write_internal` (`3362-3458`): `wr0` … `wr7`; `vs` is the data, `m` is
`memoryUndoLocation`, `j` the number of bytes copied.

In `undo_read` (`3217-3284`): `rd0` … `rd4`; `w` is `writtenLocation` as read, `x` the next byte,
`buf` the buffer, `h` only observes; `lost`: the record was cleaned meanwhile (`3263-3283`).

* `queued`: waits for a page lock and may be served by another process
  (`lock_page_with_tuple`, `src/btree/page_state.c:573-585`). -/
inductive Pc where
  | idle
  | pending (t s : Nat)
  | checking (t s : Nat)
  | ready (t s m : Nat)
  | ready2 (t s m : Nat)
  | waiting (t s : Nat)
  | wantEv (t s m : Nat)
  | evicting (t s : Nat)
  | bgWant (target m : Nat)
  | bgEv
  | get0 (n : Nat) (o : Bool)
  | get1 (n : Nat) (o : Bool) (l : Nat)
  | get2 (n : Nat) (o : Bool) (l : Nat)
  | get3 (n : Nat) (o : Bool) (l : Nat)
  | get4 (n : Nat) (o : Bool) (l : Nat)
  | get5 (n : Nat) (o : Bool) (l : Nat)
  | alloc (n : Nat)
  | again (n l : Nat)
  | panic
  | fill (loc n j : Nat)
  | made (loc n : Nat)
  | snap0
  | snap1 (r : Nat)
  | snap2 (r : Nat)
  | snap3 (r : Nat)
  | wr0 (loc : Nat) (vs : List Nat)
  | wr1 (loc : Nat) (vs : List Nat) (m : Nat)
  | wr2 (loc : Nat) (vs : List Nat) (m : Nat)
  | wr3 (loc : Nat) (vs : List Nat) (m : Nat)
  | wr4 (loc : Nat) (vs : List Nat) (m j : Nat)
  | wr5 (loc : Nat) (vs : List Nat) (m : Nat)
  | wr6 (loc : Nat) (vs : List Nat) (m : Nat)
  | wr7 (loc : Nat) (vs : List Nat) (m j : Nat)
  | rd0 (loc n : Nat) (h : Nat → Nat)
  | rd1 (loc n : Nat) (h : Nat → Nat) (buf : Nat → Nat) (w x : Nat)
  | rd2 (loc n : Nat) (h : Nat → Nat) (buf : Nat → Nat)
  | rd3 (loc n : Nat) (h : Nat → Nat) (buf : Nat → Nat) (w x : Nat)
  | rd4 (loc n : Nat) (h : Nat → Nat) (buf : Nat → Nat)
  | lost
  | queued

/-- Where `update_min_undo_locations` is (`src/transam/undo.c:569-757`), under
`minUndoLocationsMutex`; `c`, `b`, `a` are the minimal reserved location, the minimal location
retained by a transaction, and that retained by a transaction or a snapshot, so far.
* `start`: change counts are odd (`588-601`).
* `res i`, `tr i`, `sr i`: about to read the locations of process `i` (`625-639`).
* `pub1` … `pub3`: about to publish (`655-657`); `pub4`: before the change count becomes even
  (`662`).
* `tail`, `raise`: before and within the raising of `writtenLocation` (`669-685`).
* `clean`: about to change `cleanedLocation` (`687-708`).
* `held`: done on behalf of `evict_undo_to_disk`, which keeps the mutex. -/
inductive UmPc where
  | start
  | res (i c b a : Nat)
  | tr (i c b a : Nat)
  | sr (i c b a : Nat)
  | pub1 (c b a : Nat)
  | pub2 (b a : Nat)
  | pub3 (b : Nat)
  | pub4
  | tail
  | raise
  | clean
  | held
deriving DecidableEq

/-- `update_min_undo_locations` in progress: its arguments `undoEviction`, `do_cleanup`.
src/transam/undo.c:569-760. -/
structure Um where
  ev : Bool
  cl : Bool
  pc : UmPc

/-- Where `evict_undo_to_disk` is (`src/transam/undo.c:1844-1973`), under `undoWriteLock`.
* `locked`: has the lock (`1864`).
* `um`: in `update_min_undo_locations`, or after it, with the mutex held (`1867-1895`).
* `early`: nothing to write, `writeInProgressLocation` raised (`1879`).
* `decided r t`: `writeInProgressLocation` is `t`, mutex released (`1902-1909`).
* `waits i r t`: in `wait_for_reserved_location`, at process `i` (`1911-1913`).
* `copy x t`: copying, at location `x` (`1937-1966`).
* `finish t`: all copied (`1968-1971`). -/
inductive EvPc where
  | locked
  | um
  | early
  | decided (r t : Nat)
  | waits (i r t : Nat)
  | copy (x t : Nat)
  | finish (t : Nat)
deriving DecidableEq

/-- `evict_undo_to_disk` in progress: who runs it, its arguments.  src/transam/undo.c:1843-1973. -/
structure Ev where
  owner : Nat
  target : Nat
  m : Nat
  pc : EvPc

/-- An undo record: location, size.  src/transam/undo.c:2154-2203. -/
structure Rec where
  loc : Nat
  n : Nat
deriving DecidableEq

/-- What can be observed.
* `took p r need`: a snapshot with retain location `r` was taken, `need` are the locations of
  the undo records of all transactions in progress.
* `put x r`: byte `x` of a new record was put into the ring when `minProcRetainLocation` was `r`.
* `copied x`: byte `x` was copied to the file.
* `read p x v vs`: byte `x` was read, the result is `v`; `vs` are the values it had during the
  read.  Auxiliary of the model, without counterpart in /repo. -/
inductive Ob where
  | took (p r : Nat) (need : List Nat)
  | put (x r : Nat)
  | copied (x : Nat)
  | read (p x v : Nat) (vs : List Nat)
deriving DecidableEq

/-- Shared memory and processes.
* `used`, `adv`, `written`, `wip`, `minRes`, `minRet`, `minTr`, `cleaned`: `lastUsedLocation`,
  `advanceReservedLocation`, `writtenLocation`, `writeInProgressLocation`,
  `minProcReservedLocation`, `minProcRetainLocation`, `minProcTransactionRetainLocation`,
  `cleanedLocation` (`include/transam/undo.h:76-230`).
* `ring`, `file`: contents.
* per process: `res`, `tr`, `sr`: `reservedUndoLocation`, `transactionUndoRetainLocation`,
  `snapshotRetainUndoLocation`; `sz`: `reserved_undo_sizes`; `snaps`: its snapshots, by retain
  location; `undo`: locations of the records of its transaction.
* `um`, `ev`: who holds `minUndoLocationsMutex` and `undoWriteLock`.
* `recs`, `hist x` (the values of byte `x`, newest first), `obs`: only observe. -/
structure St where
  used : Nat
  adv : Nat
  written : Nat
  wip : Nat
  minRes : Nat
  minRet : Nat
  minTr : Nat
  cleaned : Nat
  ring : Nat → Nat
  file : Nat → Option Nat
  res : Nat → Option Nat
  tr : Nat → Option Nat
  sr : Nat → Option Nat
  sz : Nat → Nat
  pc : Nat → Pc
  snaps : Nat → List Nat
  undo : Nat → List Nat
  um : Option Um
  ev : Option Ev
  recs : List Rec
  hist : Nat → List Nat
  obs : List Ob

/-- Function update.  Auxiliary of the model, without counterpart in /repo. -/
def upd {α : Type} (f : Nat → α) (i : Nat) (v : α) : Nat → α := fun j => if j = i then v else f j

/-- After start-up all locations are equal (`src/checkpoint/checkpoint.c:356-380`). -/
def init (n : Nat) : St where
  used := n
  adv := n
  written := n
  wip := n
  minRes := n
  minRet := n
  minTr := n
  cleaned := n
  ring := fun _ => 0
  file := fun _ => none
  res := fun _ => none
  tr := fun _ => none
  sr := fun _ => none
  sz := fun _ => 0
  pc := fun _ => .idle
  snaps := fun _ => []
  undo := fun _ => []
  um := none
  ev := none
  recs := []
  hist := fun _ => []
  obs := []

/-- Is `minUndoLocationsChangeCount` odd (`src/transam/undo.c:601`, `662`)? -/
def countOdd (s : St) : Bool :=
  match s.um with
  | none => false
  | some u =>
    match u.pc with
    | .tail => false
    | .raise => false
    | .clean => false
    | .held => false
    | _ => true

/-- Is `writeInProgressChangeCount` odd (`src/transam/undo.c:592`, `1885`, `1907`)? -/
def writeOdd (s : St) : Bool :=
  match s.um with
  | none => false
  | some u => u.ev

/-- Is `undoWriteLock` free?  src/transam/undo.c:1864, 1971. -/
def lockFree (s : St) : Bool :=
  match s.ev, s.um with
  | some _, _ => false
  | none, none => true
  | none, some u => decide (u.pc ≠ .raise)

/-- Not above, `InvalidUndoLocation` being above all.
Auxiliary of the model, without counterpart in /repo. -/
def below (x : Nat) (o : Option Nat) : Bool :=
  match o with
  | none => true
  | some y => decide (x ≤ y)

/-- The smaller, `InvalidUndoLocation` being above all.
Auxiliary of the model, without counterpart in /repo. -/
def minOpt (x : Nat) (o : Option Nat) : Nat :=
  match o with
  | none => x
  | some y => min x y

/-- A process goes on to `pc`.  Auxiliary of the model, without counterpart in /repo. -/
def to (s : St) (p : Nat) (pc : Pc) : St := { s with pc := upd s.pc p pc }

/-! ## Reserving -/

/-- `reserve_undo_size_extended` up to the `fetch_add` (`src/transam/undo.c:2023-2029`). -/
def reserve (s : St) (p want : Nat) : St :=
  match s.pc p with
  | .idle =>
    if want ≤ s.sz p then s
    else
      { s with
        adv := s.adv + (want - s.sz p)
        sz := upd s.sz p want
        pc := upd s.pc p (.pending (s.adv + (want - s.sz p)) (want - s.sz p)) }
  | _ => s

/-- Giving up without waiting (`src/transam/undo.c:2045-2050`, `2057-2066`). -/
def giveUp (s : St) (p : Nat) : St :=
  match s.pc p with
  | .checking _ k =>
    { s with
      adv := s.adv - k
      sz := upd s.sz p (s.sz p - k)
      pc := upd s.pc p .idle }
  | .ready2 _ k _ =>
    { s with
      adv := s.adv - k
      sz := upd s.sz p (s.sz p - k)
      pc := upd s.pc p .idle }
  | _ => s

/-- `release_undo_size` (`src/transam/undo.c:2216-2229`). -/
def releaseSize (s : St) (p : Nat) : St :=
  match s.pc p with
  | .idle =>
    { s with
      adv := s.adv - s.sz p
      sz := upd s.sz p 0 }
  | _ => s

/-- `evict_undo_to_disk` is begun: the lock is free.  src/transam/undo.c:1864. -/
def evictStart (s : St) (p target m : Nat) (pc : Pc) : St :=
  { s with
    ev := some ⟨p, target, m, .locked⟩
    pc := upd s.pc p pc }

/-- The background writer decides to evict (`src/workers/bgwriter.c:187-200`).  The target is
left open, below `minProcReservedLocation`. -/
def bg (s : St) (p target : Nat) : St :=
  match s.pc p with
  | .idle => if target < s.minRes then to s p (.bgWant target s.minRes) else s
  | _ => s

/-! ## A record -/

/-- `get_undo_record` is called, with at least twice the size reserved, as its callers do
(`src/transam/undo.c:2206-2213`, `2179-2184`); records are smaller than the ring
(`408-418`). -/
def get (c : Cfg) (s : St) (p n : Nat) : St :=
  match s.pc p with
  | .idle =>
    if 0 < n ∧ n < c.size ∧ 2 * n ≤ s.sz p then
      to s p (.get0 n (s.tr p).isNone)
    else s
  | _ => s

/-- An attempt to allocate (`src/transam/undo.c:2163-2200`).  `retry` is what follows when the
record would reach the end of the ring. -/
def attempt (c : Cfg) (s : St) (p n : Nat) (retry : Pc) : St :=
  if s.sz p < n then to s p .panic
  else if s.used % c.size < (s.used + n) % c.size then
    { s with
      used := s.used + n
      sz := upd s.sz p (s.sz p - n)
      pc := upd s.pc p (.fill s.used n 0)
      undo := upd s.undo p (s.used :: s.undo p)
      recs := ⟨s.used, n⟩ :: s.recs }
  else
    { s with
      used := s.used + n
      sz := upd s.sz p (s.sz p - n)
      pc := upd s.pc p retry }

/-- The next byte of the new record is put into the ring.
The callers of src/transam/undo.c:2205-2213 fill the record. -/
def put (c : Cfg) (s : St) (p v : Nat) : St :=
  match s.pc p with
  | .fill loc n j =>
    { s with
      ring := upd s.ring ((loc + j) % c.size) v
      hist := upd s.hist (loc + j) (v :: s.hist (loc + j))
      pc := upd s.pc p (if j + 1 < n then .fill loc n (j + 1) else .made loc n)
      obs := .put (loc + j) s.minRet :: s.obs }
  | _ => s

/-- `release_reserved_undo_location` (`src/transam/undo.c:2240-2246`). -/
def release (s : St) (p : Nat) : St :=
  match s.pc p with
  | .made _ _ =>
    { s with
      res := upd s.res p none
      pc := upd s.pc p .idle }
  | _ => s

/-- A process queues for a page lock with a tuple to be inserted.
src/btree/page_state.c:537-632. -/
def queue (s : St) (p : Nat) : St :=
  match s.pc p with
  | .idle => to s p .queued
  | _ => s

/-- `steal_reserved_undo_size` and, at once, `giveup_reserved_undo_size`
(`src/transam/undo.c:2099-2120`, `src/btree/insert.c:1297`, `src/btree/page_state.c:600`). -/
def steal (s : St) (q p : Nat) : St :=
  match s.pc q, s.pc p with
  | .idle, .queued =>
    { s with sz := fun i => if i = p then 0 else if i = q then s.sz q + s.sz p else s.sz i }
  | _, _ => s

/-- `add_new_undo_stack_item_to_process` up to the release of the location
(`src/transam/undo.c:2290-2307`): process `q` has made the record for process `p`, which was
already waiting (`src/btree/insert.c:1280-1360`), so that what `p` retains is not above it. -/
def hand (s : St) (q p : Nat) : St :=
  match s.pc q, s.pc p with
  | .made loc _, .queued =>
    if loc ∈ s.undo q ∧ (s.tr p).getD loc ≤ loc then
      { s with
        undo := upd (upd s.undo q ((s.undo q).erase loc)) p (loc :: s.undo p)
        tr := upd s.tr p (some ((s.tr p).getD loc)) }
    else s
  | _, _ => s

/-- The waiting process is woken up.  src/btree/page_state.c:1004-1195. -/
def wake (s : St) (p : Nat) : St :=
  match s.pc p with
  | .queued => to s p .idle
  | _ => s

/-- `free_retained_undo_location` at the end of a transaction (`src/transam/undo.c:1569-1576`,
`2788-2803`). -/
def free (s : St) (p : Nat) : St :=
  match s.pc p with
  | .idle =>
    { s with
      tr := upd s.tr p none
      undo := upd s.undo p [] }
  | _ => s

/-! ## Snapshots -/

/-- A snapshot is begun to be taken (`src/transam/undo.c:3538-3540`). -/
def snap (s : St) (p : Nat) : St :=
  match s.pc p with
  | .idle => to s p .snap0
  | _ => s

/-- A snapshot is dropped.  src/transam/undo.c:3486-3503. -/
def drop (s : St) (p i : Nat) : St :=
  match s.pc p with
  | .idle => { s with snaps := upd s.snaps p ((s.snaps p).eraseIdx i) }
  | _ => s

/-- The smallest of the retain locations of the snapshots.  src/transam/undo.c:2385-2403. -/
def lowest : List Nat → Option Nat
  | [] => none
  | r :: rs => some (minOpt r (lowest rs))

/-- `orioledb_reset_xmin_hook` as far as undo locations go (`src/transam/undo.c:2385-2403`).
Simplified: snapshots that are only active are not distinguished from registered ones. -/
def reset (s : St) (p : Nat) : St :=
  match s.pc p with
  | .idle =>
    match lowest (s.snaps p), s.sr p with
    | none, _ => { s with sr := upd s.sr p none }
    | some l, some r => if r < l then { s with sr := upd s.sr p (some l) } else s
    | some _, none => s
  | _ => s

/-- `clear_my_snapshot_retain_location` (`src/transam/undo.c:1176-1182`), called when an index
has been built (`src/catalog/indices.c:2095-2096`, `2511-2512`). -/
def clearMy (s : St) (p : Nat) : St :=
  match s.pc p with
  | .idle => { s with sr := upd s.sr p none }
  | _ => s

/-- The locations of the undo records of all transactions in progress.
Auxiliary of the model, without counterpart in /repo. -/
def allUndo (s : St) : Nat → List Nat
  | 0 => []
  | i + 1 => s.undo i ++ allUndo s i

/-! ## Reading and writing -/

/-- A process may use the undo at `loc`: its transaction or a snapshot retains it
(`src/transam/undo.c:3373-3379`). -/
def covers (s : St) (p loc : Nat) : Bool :=
  (match s.tr p with | none => false | some t => decide (t ≤ loc)) ||
    (s.snaps p).any fun r => decide (r ≤ loc)

/-- A record somebody is still filling.  Auxiliary of the model, without counterpart in /repo. -/
def filling (c : Cfg) (s : St) (r : Rec) : Bool :=
  (List.range c.procs).any fun q =>
    match s.pc q with
    | .fill loc _ _ => decide (loc = r.loc)
    | .made loc _ => decide (loc = r.loc)
    | _ => false

/-- The range is part of a complete record.
Auxiliary of the model, without counterpart in /repo. -/
def complete (c : Cfg) (s : St) (loc n : Nat) : Bool :=
  s.recs.any fun r => decide (r.loc ≤ loc ∧ loc + n ≤ r.loc + r.n) && !filling c s r

/-- `undo_write` of data `vs` is begun.  src/transam/undo.c:3344-3348. -/
def write (c : Cfg) (s : St) (p loc : Nat) (vs : List Nat) : St :=
  match s.pc p with
  | .idle =>
    if vs ≠ [] ∧ complete c s loc vs.length ∧ covers s p loc then to s p (.wr0 loc vs) else s
  | _ => s

/-- `undo_read` of `n` bytes is begun.  src/transam/undo.c:3216-3284. -/
def read (c : Cfg) (s : St) (p loc n : Nat) : St :=
  match s.pc p with
  | .idle =>
    if 0 < n ∧ complete c s loc n ∧ covers s p loc then
      to s p (.rd0 loc n (fun x => (s.hist x).length))
    else s
  | _ => s

/-- The bytes of a read are observed.  Auxiliary of the model, without counterpart in /repo. -/
def reads (s : St) (p loc : Nat) (h buf : Nat → Nat) : Nat → List Ob
  | 0 => []
  | k + 1 =>
    .read p (loc + k) (buf (loc + k))
        ((s.hist (loc + k)).take ((s.hist (loc + k)).length - h (loc + k) + 1)) ::
      reads s p loc h buf k

/-! ## The next step of a process -/

/-- The next step of a process, where there is one.  The lines are given at `Pc`. -/
def go (c : Cfg) (s : St) (p : Nat) : St :=
  match s.pc p with
  | .pending t k =>
    if t ≤ s.written + c.size then to s p .idle else to s p (.checking t k)
  | .checking t k => if t ≤ s.minRes + c.size then to s p (.ready t k s.minRes) else s
  | .ready t k m => if t ≤ s.written + c.size then to s p .idle else to s p (.ready2 t k m)
  | .ready2 t k m =>
    if t ≤ s.wip + c.size then to s p (.waiting t k) else to s p (.wantEv t k m)
  | .waiting _ _ => if lockFree s then to s p .idle else s
  | .wantEv t k m =>
    if lockFree s then evictStart s p (t - c.size) m (.evicting t k) else s
  | .bgWant target m => if lockFree s then evictStart s p target m .bgEv else to s p .idle
  | .get0 n o => to s p (.get1 n o s.used)
  | .get1 n o l => { to s p (.get2 n o l) with res := upd s.res p (some l) }
  | .get2 n o l =>
    { to s p (.get3 n o l) with tr := if o then upd s.tr p (some l) else s.tr }
  | .get3 n o l => if countOdd s then s else to s p (.get4 n o l)
  | .get4 n o l => if l < s.minRes then to s p (.get0 n o) else to s p (.get5 n o l)
  | .get5 n o l => if l < s.minTr then to s p (.get0 n o) else to s p (.alloc n)
  | .alloc n => attempt c s p n (.again n s.used)
  | .again n l => attempt c s p n (.again n l)
  | .snap0 => to s p (.snap1 s.minTr)
  | .snap1 r =>
    { to s p (.snap2 r) with
      sr := upd s.sr p (match s.sr p with
        | none => some r
        | some l => if r < l then some r else some l) }
  | .snap2 r => if countOdd s then s else to s p (.snap3 r)
  | .snap3 r =>
    if r < s.minRet then to s p .snap0
    else
      { to s p .idle with
        snaps := upd s.snaps p (r :: s.snaps p)
        obs := .took p r (allUndo s c.procs) :: s.obs }
  | .wr0 loc vs =>
    if loc + vs.length ≤ s.wip then to s p (.wr5 loc vs (loc + vs.length))
    else to s p (.wr1 loc vs (max loc s.wip))
  | .wr1 loc vs m => { to s p (.wr2 loc vs m) with res := upd s.res p (some m) }
  | .wr2 loc vs m => if writeOdd s then s else to s p (.wr3 loc vs m)
  | .wr3 loc vs m =>
    if m < s.wip then { to s p (.wr0 loc vs) with res := upd s.res p none }
    else to s p (.wr4 loc vs m 0)
  | .wr4 loc vs m j =>
    if m + j < loc + vs.length then
      { to s p (.wr4 loc vs m (j + 1)) with
        ring := upd s.ring ((m + j) % c.size) (vs.getD (m + j - loc) 0)
        hist := upd s.hist (m + j) (vs.getD (m + j - loc) 0 :: s.hist (m + j)) }
    else to s p (.wr5 loc vs m)
  | .wr5 loc vs m =>
    { to s p (if m = loc then .idle else .wr6 loc vs m) with res := upd s.res p none }
  | .wr6 loc vs m =>
    if s.written < m ∧ lockFree s = false then s else to s p (.wr7 loc vs m 0)
  | .wr7 loc vs m j =>
    if loc + j < m then
      { to s p (.wr7 loc vs m (j + 1)) with
        file := upd s.file (loc + j) (some (vs.getD j 0))
        hist := upd s.hist (loc + j) (vs.getD j 0 :: s.hist (loc + j)) }
    else to s p .idle
  | .rd0 loc n h =>
    if s.written < loc + n then
      to s p (.rd1 loc n h (fun _ => 0) s.written (max s.written loc))
    else to s p (.rd3 loc n h (fun _ => 0) (loc + n) loc)
  | .rd1 loc n h buf w x =>
    if x < loc + n then to s p (.rd1 loc n h (upd buf x (s.ring (x % c.size))) w (x + 1))
    else to s p (.rd2 loc n h buf)
  | .rd2 loc n h buf =>
    if loc < s.written then to s p (.rd3 loc n h buf (min (loc + n) s.written) loc)
    else to s p (.rd4 loc n h buf)
  | .rd3 loc n h buf w x =>
    if x < w then to s p (.rd3 loc n h (upd buf x ((s.file x).getD 0)) w (x + 1))
    else to s p (.rd4 loc n h buf)
  | .rd4 loc n h buf =>
    if loc < s.minRet then to s p .lost
    else
      { to s p .idle with
        obs := reads s p loc h buf n ++ s.obs }
  | _ => s

/-! ## Minimal locations and eviction -/

/-- `update_min_undo_locations` is begun by somebody, not on behalf of an eviction.
src/transam/undo.c:569-592. -/
def umStart (s : St) (cl : Bool) : St :=
  match s.um with
  | none => { s with um := some ⟨false, cl, .start⟩ }
  | some _ => s

/-- The next step of `update_min_undo_locations` (`src/transam/undo.c:588-714`).  The unlinking
of files that follows is `lose`. -/
def umGo (c : Cfg) (s : St) : St :=
  match s.um with
  | none => s
  | some u =>
    match u.pc with
    | .start => { s with um := some { u with pc := .res 0 s.used s.used s.used } }
    | .res i x b a =>
      if i < c.procs then { s with um := some { u with pc := .tr i (minOpt x (s.res i)) b a } }
      else { s with um := some { u with pc := .pub1 x b a } }
    | .tr i x b a =>
      { s with um := some { u with pc := .sr i x (minOpt b (s.tr i)) (minOpt a (s.tr i)) } }
    | .sr i x b a => { s with um := some { u with pc := .res (i + 1) x b (minOpt a (s.sr i)) } }
    | .pub1 x b a =>
      { s with
        minRes := x
        um := some { u with pc := .pub2 b a } }
    | .pub2 b a =>
      { s with
        minRet := max s.minRet a
        um := some { u with pc := .pub3 b } }
    | .pub3 b =>
      { s with
        minTr := max s.minTr b
        um := some { u with pc := .pub4 } }
    | .pub4 => { s with um := some { u with pc := if u.ev then .held else .tail } }
    | .tail =>
      if s.written = s.wip ∧ s.written < s.minRet ∧ lockFree s then
        { s with
          wip := s.minRet
          um := some { u with pc := .raise } }
      else { s with um := some { u with pc := .clean } }
    | .raise =>
      { s with
        written := s.minRet
        um := some { u with pc := .clean } }
    | .clean =>
      { s with
        cleaned := if u.cl then s.minRet else s.cleaned
        um := none }
    | .held => s

/-- `evict_undo_to_disk` returns: its caller goes on.  src/transam/undo.c:1968-1972. -/
def evDone (s : St) (e : Ev) : St :=
  { s with
    ev := none
    pc := upd s.pc e.owner .idle }

/-- The next step of `evict_undo_to_disk` (`src/transam/undo.c:1867-1972`).  In
`check_reserved_undo_location` (`1869-1870`) there is nothing to wait for, or the process would
wait for the mutex it holds. -/
def evGo (c : Cfg) (s : St) : St :=
  match s.ev with
  | none => s
  | some e =>
    match e.pc with
    | .locked =>
      match s.um with
      | none =>
        { s with
          um := some ⟨true, false, .start⟩
          ev := some { e with pc := .um } }
      | some _ => s
    | .um =>
      match s.um with
      | some ⟨true, _, .held⟩ =>
        if s.minRes + c.size < e.m then s
        else if e.target ≤ s.minRet ∨ e.target ≤ s.written then
          if s.wip < s.minRet then
            { s with
              wip := s.minRet
              ev := some { e with pc := .early } }
          else { evDone s e with um := none }
        else
          { s with
            wip := min (max e.target (s.written + c.size / 20)) e.m
            um := none
            ev := some { e with
              pc := .decided (max s.minRet s.written)
                (min (max e.target (s.written + c.size / 20)) e.m) } }
      | _ => s
    | .early =>
      { evDone s e with
        written := s.minRet
        um := none }
    | .decided r t =>
      if s.minRes < t then { s with ev := some { e with pc := .waits 0 r t } }
      else { s with ev := some { e with pc := .copy r t } }
    | .waits i r t =>
      if i < c.procs then
        if below t (s.res i) then { s with ev := some { e with pc := .waits (i + 1) r t } } else s
      else { s with ev := some { e with pc := .copy r t } }
    | .copy x t =>
      if x < t then
        { s with
          file := upd s.file x (some (s.ring (x % c.size)))
          ev := some { e with pc := .copy (x + 1) t }
          obs := .copied x :: s.obs }
      else { s with ev := some { e with pc := .finish t } }
    | .finish t =>
      match s.um with
      | none => { evDone s e with written := t }
      | some _ => s

/-- A file is unlinked after `cleanedLocation` has passed it (`src/transam/undo.c:735-755`;
which blocks these are is the subject of `Verif/OBuffers/Cleanup`, property C29). -/
def lose (s : St) (x : Nat) : St :=
  if x < s.cleaned then { s with file := upd s.file x none } else s

/-! ## Runs -/

/-- Actions.  The lines are given at the functions above. -/
inductive Act where
  | go (p : Nat)
  | reserve (p want : Nat)
  | giveUp (p : Nat)
  | releaseSize (p : Nat)
  | bg (p target : Nat)
  | get (p n : Nat)
  | put (p v : Nat)
  | release (p : Nat)
  | queue (p : Nat)
  | steal (q p : Nat)
  | hand (q p : Nat)
  | wake (p : Nat)
  | free (p : Nat)
  | snap (p : Nat)
  | drop (p i : Nat)
  | reset (p : Nat)
  | clearMy (p : Nat)
  | write (p loc : Nat) (vs : List Nat)
  | read (p loc n : Nat)
  | umStart (cl : Bool)
  | umGo
  | evGo
  | lose (x : Nat)

/-- Who acts.  Auxiliary of the model, without counterpart in /repo. -/
def Act.procs : Act → List Nat
  | .go p => [p]
  | .reserve p _ => [p]
  | .giveUp p => [p]
  | .releaseSize p => [p]
  | .bg p _ => [p]
  | .get p _ => [p]
  | .put p _ => [p]
  | .release p => [p]
  | .queue p => [p]
  | .steal q p => [q, p]
  | .hand q p => [q, p]
  | .wake p => [p]
  | .free p => [p]
  | .snap p => [p]
  | .drop p _ => [p]
  | .reset p => [p]
  | .clearMy p => [p]
  | .write p _ _ => [p]
  | .read p _ _ => [p]
  | _ => []

/-- One action.  The lines are given at the functions called. -/
def act (c : Cfg) (s : St) : Act → St
  | .go p => go c s p
  | .reserve p want => reserve s p want
  | .giveUp p => giveUp s p
  | .releaseSize p => releaseSize s p
  | .bg p target => bg s p target
  | .get p n => get c s p n
  | .put p v => put c s p v
  | .release p => release s p
  | .queue p => queue s p
  | .steal q p => steal s q p
  | .hand q p => hand s q p
  | .wake p => wake s p
  | .free p => free s p
  | .snap p => snap s p
  | .drop p i => drop s p i
  | .reset p => reset s p
  | .clearMy p => clearMy s p
  | .write p loc vs => write c s p loc vs
  | .read p loc n => read c s p loc n
  | .umStart cl => umStart s cl
  | .umGo => umGo c s
  | .evGo => evGo c s
  | .lose x => lose s x

/-- One action, by existing processes.  Auxiliary of the model, without counterpart in /repo. -/
def step (c : Cfg) (s : St) (a : Act) : St :=
  if a.procs.all fun p => decide (p < c.procs) then act c s a else s

/-- A run.  Auxiliary of the model, without counterpart in /repo. -/
def runActs (c : Cfg) (s : St) : List Act → St
  | [] => s
  | a :: as => runActs c (step c s a) as

end Verif.UndoLog
