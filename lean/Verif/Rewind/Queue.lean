/-
The queue of rewind items: two ring buffers in shared memory and a file between them.

Source: src/rewind/rewind.c, include/rewind/rewind.h (protocol at 114-192).
-/
namespace Verif.Rewind

variable {α : Type}

/-- Sizes: `size` is `rewind_circular_buffer_size`, the length of both ring buffers in
items (orioledb.c:1277-1280), `blk` is `REWIND_DISK_BUFFER_LENGTH`, the number of items
moved to or from the file at a time (rewind.h:72). -/
structure Cfg where
  size : Nat
  blk : Nat

/-- The sizes the code can have: a block is `ORIOLEDB_BLCKSZ / sizeof(RewindItem)` =
8192 / 120 = 68 items (rewind.h:50-72) and `size` a positive multiple of it: the minimum
of `orioledb.rewind_buffers` is 6 pages, half of which goes to each of the two kinds of
buffers (orioledb.c:698-709, 1277-1280). -/
def Cfg.Ok (c : Cfg) : Prop := 0 < c.blk ∧ ∃ m, 1 ≤ m ∧ c.size = m * c.blk

/-- Where a backend is inside `add_to_rewind_buffer` (rewind.c:1609-1865). -/
inductive Proc (α : Type) where
  /-- outside -/
  | idle
  /-- positions `start ..` are reserved, waiting for space (rewind.c:1632-1701) -/
  | wait (start : Nat) (items : List α)
  /-- filling; the first `k` items are in place (rewind.c:1703-1834) -/
  | fill (start : Nat) (items : List α) (k : Nat)
  /-- about to execute the compare-exchange on `addPosFilledUpto` (rewind.c:1848) -/
  | cas (start n cur : Nat)
  /-- about to look at the tag of the next item (rewind.c:1856) -/
  | chk (start n cur : Nat)

/-- Shared state.  `c`, `r`, `e`, `af`, `ar` are `completePos`, `restorePos`, `evictPos`,
`addPosFilledUpto`, `addPosReserved` (rewind.h:74-112).  `add` and `comp` are
`rewindAddBuffer` and `rewindCompleteBuffer`, indexed by slot, `none` being a slot with
`EMPTY_ITEM_TAG`; `disk` is the file, indexed by queue position (the byte offset divided
by `sizeof(RewindItem)`).  `lock = some t` while a backend that holds `rewindEvictLock`
has written a block ending at position `t` and has not cleared all of its slots yet
(rewind.c:1531-1539).  Two fields exist only for stating theorems: `log`, the items in
the order in which their positions were reserved, and `out`, what the worker completed
(`none` for a slot that was empty).
Simplified: positions are unbounded numbers (64 bit in the code). -/
structure Q (α : Type) where
  c : Nat
  r : Nat
  e : Nat
  af : Nat
  ar : Nat
  add : Nat → Option α
  comp : Nat → Option α
  disk : Nat → Option α
  lock : Option Nat
  procs : Nat → Proc α
  log : List α
  out : List (Option α)

/-- `rewind_init_shmem` (rewind.c:994-1034); `cleanup_rewind_files` removes the file. -/
def Q.init : Q α :=
  { c := 0, r := 0, e := 0, af := 0, ar := 0, add := fun _ => none, comp := fun _ => none
    disk := fun _ => none, lock := none, procs := fun _ => .idle, log := [], out := [] }

/-- Assignment to one slot, position or process (array assignments of rewind.c:1169-1172,
1471-1472, 1534, 1707-1834, 1411). -/
def upd {β : Type} (f : Nat → β) (i : Nat) (v : β) : Nat → β := fun j => if j = i then v else f j

/-- Atomic actions.  `reserve`, `admit`, `put`, `tryCas`, `look` are done by committing
backends; `move` by the backend that evicts or by the worker that restores; `evict` and
`clear` by the backend that evicts; `restore`, `complete`, `punch` by the worker. -/
inductive Act (α : Type) where
  | reserve (p : Nat) (items : List α)
  | admit (p : Nat)
  | put (p : Nat)
  | tryCas (p : Nat)
  | look (p : Nat)
  | move
  | evict
  | clear
  | restore
  | complete
  | punch

/-- `pg_atomic_fetch_add_u64(&addPosReserved, nitems)` (rewind.c:1629-1630).  Simplified:
the contents of the items is given here although the code makes it when filling. -/
def doReserve (q : Q α) (p : Nat) (items : List α) : Option (Q α) :=
  match q.procs p with
  | .idle =>
    if items = [] then none
    else some { q with ar := q.ar + items.length, log := q.log ++ items
                       procs := upd q.procs p (.wait q.ar items) }
  | _ => none

/-- End of the waiting loop: `freeAddSpace >= 1` (rewind.c:1643, 1699).  The eviction
started by the loop when the space is low is `move` / `evict` / `clear`, which the model
lets happen at any time. -/
def doAdmit (cf : Cfg) (q : Q α) (p : Nat) : Option (Q α) :=
  match q.procs p with
  | .wait s it =>
    if s + it.length + 1 ≤ q.e + cf.size then some { q with procs := upd q.procs p (.fill s it 0) }
    else none
  | _ => none

/-- Fill one item and set its tag (rewind.c:1705-1834). -/
def doPut (cf : Cfg) (q : Q α) (p : Nat) : Option (Q α) :=
  match q.procs p with
  | .fill s it k =>
    match it[k]? with
    | none => none
    | some x =>
      some { q with add := upd q.add ((s + k) % cf.size) (some x)
                    procs := upd q.procs p
                      (if k + 1 = it.length then .cas s it.length s else .fill s it (k + 1)) }
  | _ => none

/-- The compare-exchange and the tests after it (rewind.c:1848-1853). -/
def doCas (q : Q α) (p : Nat) : Option (Q α) :=
  match q.procs p with
  | .cas s n cur =>
    if q.af = cur then some { q with af := cur + 1, procs := upd q.procs p (.chk s n (cur + 1)) }
    else if s ≤ q.af ∧ q.af < s + n then some { q with procs := upd q.procs p (.cas s n q.af) }
    else some { q with procs := upd q.procs p .idle }
  | _ => none

/-- The test of the next item's tag (rewind.c:1855-1861). -/
def doLook (cf : Cfg) (q : Q α) (p : Nat) : Option (Q α) :=
  match q.procs p with
  | .chk s n cur =>
    if (q.add (cur % cf.size)).isNone then some { q with procs := upd q.procs p .idle }
    else some { q with procs := upd q.procs p (.cas s n cur) }
  | _ => none

/-- Condition of the fast path (rewind.c:1445-1446, 1145-1147). -/
def fast (cf : Cfg) (q : Q α) : Bool := q.r = q.e && q.r < q.c + cf.size

/-- One turn of the fast path: an item goes from the add buffer to the complete buffer
(rewind.c:1450-1479 by a backend, 1145-1178 by the worker).  Simplified: the code holds
`rewindEvictLock` for the whole loop; here the lock is taken for one item at a time,
which allows more interleavings. -/
def doMove (cf : Cfg) (q : Q α) : Option (Q α) :=
  if q.lock = none ∧ fast cf q ∧ q.e < q.af then
    some { q with comp := upd q.comp (q.r % cf.size) (q.add (q.e % cf.size))
                  add := upd q.add (q.e % cf.size) none
                  e := q.e + 1, r := q.r + 1 }
  else none

/-- A block of items is written to the file (rewind.c:1482-1529).  The two calls of
`o_buffers_write` for a block that wraps around are one write by position here. -/
def doEvict (cf : Cfg) (q : Q α) : Option (Q α) :=
  if q.lock = none ∧ fast cf q = false ∧ q.e + cf.blk < q.af then
    some { q with disk := fun p => if q.e ≤ p ∧ p < q.e + cf.blk then q.add (p % cf.size) else q.disk p
                  lock := some (q.e + cf.blk) }
  else none

/-- One slot of the written block is cleared (rewind.c:1532-1539); the lock is released
after the last (1543). -/
def doClear (cf : Cfg) (q : Q α) : Option (Q α) :=
  match q.lock with
  | none => none
  | some t => some { q with add := upd q.add (q.e % cf.size) none, e := q.e + 1
                            lock := if q.e + 1 = t then none else some t }

/-- A block is read back from the file (rewind.c:1098-1141). -/
def doRestore (cf : Cfg) (q : Q α) : Option (Q α) :=
  if q.lock = none ∧ q.r < q.e ∧ q.r + cf.blk ≤ q.c + cf.size then
    some { q with comp := fun i =>
                    if (i + cf.size - q.r % cf.size) % cf.size < cf.blk ∧ i < cf.size then
                      q.disk (q.r + (i + cf.size - q.r % cf.size) % cf.size)
                    else q.comp i
                  r := q.r + cf.blk }
  else none

/-- The worker completes the oldest item (rewind.c:1264-1416): its tag is cleared and
`completePos` advanced.  The decision to wait longer (1308-1350) only delays the action. -/
def doComplete (cf : Cfg) (q : Q α) : Option (Q α) :=
  if q.c < q.af ∧ q.c < q.r then
    some { q with out := q.out ++ [q.comp (q.c % cf.size)]
                  comp := upd q.comp (q.c % cf.size) none, c := q.c + 1 }
  else none

/-- `sizeof(RewindItem)` (rewind.h:50-62; three undo logs, 8-byte alignment). -/
def itemBytes : Nat := 120
/-- `ORIOLEDB_BLCKSZ`. -/
def blockBytes : Nat := 8192

/-- The worker discards the blocks of the file that lie below `restorePos`
(rewind.c:1182-1195): every byte below `(restorePos * 120 / 8192) * 8192`. -/
def doPunch (q : Q α) : Option (Q α) :=
  some { q with disk := fun p =>
    if p * itemBytes < q.r * itemBytes / blockBytes * blockBytes then none else q.disk p }

/-- One atomic action; `none` when it is not possible in this state. -/
def step (cf : Cfg) (q : Q α) : Act α → Option (Q α)
  | .reserve p it => doReserve q p it
  | .admit p => doAdmit cf q p
  | .put p => doPut cf q p
  | .tryCas p => doCas q p
  | .look p => doLook cf q p
  | .move => doMove cf q
  | .evict => doEvict cf q
  | .clear => doClear cf q
  | .restore => doRestore cf q
  | .complete => doComplete cf q
  | .punch => doPunch q

/-- Any interleaving of actions. -/
def run (cf : Cfg) (q : Q α) : List (Act α) → Option (Q α)
  | [] => some q
  | a :: as => (step cf q a).bind (fun q' => run cf q' as)

/-- States the system can reach. -/
def Reach (cf : Cfg) (q : Q α) : Prop := ∃ as, run cf Q.init as = some q

/-- The reading order of `do_rewind` (rewind.c:435-468, 649-661): from position `pos`
down to `completePos`, out of the add buffer, out of a block of the file read into
`tmpbuf` when `k = 0`, or out of the complete buffer.  `n` positions are read. -/
def walk (cf : Cfg) (q : Q α) : Nat → Nat → Nat → (Nat → Option α) → List (Option α)
  | 0, _, _, _ => []
  | n + 1, pos, k, tmp =>
    if q.e ≤ pos then q.add (pos % cf.size) :: walk cf q n (pos - 1) k tmp
    else if q.r ≤ pos then
      let tmp := if k = 0 then (fun i => q.disk (pos + 1 - cf.blk + i)) else tmp
      let k := (if k = 0 then cf.blk else k) - 1
      tmp k :: walk cf q n (pos - 1) k tmp
    else q.comp (pos % cf.size) :: walk cf q n (pos - 1) k tmp

/-- The items `do_rewind` reads: from `addPosFilledUpto - 1` (rewind.c:428) to
`completePos` (649). -/
def walkAll (cf : Cfg) (q : Q α) : List (Option α) :=
  walk cf q (q.af - q.c) (q.af - 1) 0 (fun _ => none)

end Verif.Rewind
