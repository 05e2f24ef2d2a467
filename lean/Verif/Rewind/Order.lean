import Verif.Rewind.Codec
import Verif.Rewind.Queue
/-
What surrounds the queue of rewind items: the target of a rewind, the checkpoint, the
order of commits, the undo that is retained, and how a rewind stops the worker.

Source: src/rewind/rewind.c, src/checkpoint/checkpoint.c, src/transam/undo.c.
-/
namespace Verif.Rewind

/-! ### The target of a rewind -/

/-- What the caller asks for: `orioledb_rewind_by_time`, `orioledb_rewind_to_transaction`,
`orioledb_rewind_to_timestamp` (modes of rewind.c:545-565).  Times are in microseconds;
`start` is `rewindStartTimeStamp`. -/
inductive Target where
  | time (start seconds : Nat)
  | ids (xid oxid : Option Nat)
  | stamp (t : Nat)

/-- Does the rewind stop at an item with this `oxid`, `xid` and `timestamp`, leaving it and
everything older in place (rewind.c:545-565)?  `TimestampDifferenceExceeds(a, b, ms)` is
`b - a >= ms * 1000`.  Simplified: `TransactionIdPrecedes` is `<`, that is, no wraparound
of the 32-bit transaction ids lies between the two. -/
def stopAt : Target → Option Nat → Option Nat → Nat → Bool
  | .time start secs, _, _, t => decide (t + secs * 1000000 ≤ start)
  | .ids rx ro, o, x, _ =>
    (match rx, x with | some rx, some x => decide (x < rx) | _, _ => false) ||
    (match ro, o with | some ro, some o => decide (o < ro) | _, _ => false)
  | .stamp ts, _, _, t => decide (t < ts)

/-- Messages of the checks made for a rewind to a transaction pair (rewind.c:729-798). -/
inductive Verdict where
  | error
  /-- the rewind goes on; the flags are the warnings "Rewind will be based only on rewind
  OXid" (752) and "Rewind will be based only on rewind XID" (776) -/
  | go (onlyOxid onlyXid : Bool)
  deriving DecidableEq, Repr

/-- The checks (rewind.c:729-798).  `top` is the current transaction's id, `oldest` the
horizon kept for PostgreSQL transactions, `complete` is `rewindMeta->complete_oxid` and
`finished` is `xid_is_finished`. -/
def checkIds (top oldest complete : Nat) (finished : Nat → Bool) (rx ro : Option Nat) : Verdict :=
  let futX : Bool := match rx with | some x => decide (top ≤ x) | none => false
  let futO : Bool := match ro with | some o => !finished o | none => false
  if rx = none ∧ ro = none then .error
  else if futX ∧ ro = none then .error
  else if !futX && (match rx with | some x => decide (x < oldest) | none => false) then .error
  else if futO ∧ rx = none then .error
  else if !futO && (match ro with | some o => decide (o ≤ complete) | none => false) then .error
  else if futX && futO then .error
  else .go futX futO

/-- A rewind to a transaction pair: the checks, then `do_rewind` with both ids as given
(rewind.c:894).  `items` are in reading order. -/
def rewindIds (top oldest complete : Nat) (finished : Nat → Bool) (rx ro : Option Nat)
    (items : List Item) : Verdict × Option (List Undone) :=
  match checkIds top oldest complete finished rx ro with
  | .error => (.error, none)
  | .go a b => (.go a b, rewindOut (stopAt (.ids rx ro)) items)

/-! ### The checkpoint -/

section
variable {α : Type}

/-- State of `checkpoint_write_rewind_xids` (rewind.c:1871-1947): `pos` is
`rewindMeta->checkpointPos`, which stays in shared memory from one checkpoint to the next;
`phase` is the loop it is in (1: 1898, 2: 1902, 3: 1943, 0: not running), `buf` the block
read from the file, `written` what went into this checkpoint's file of transactions. -/
structure Ck (α : Type) where
  pos : Nat := 0
  phase : Nat := 0
  buf : Option (Nat → Option α) := none
  written : List α := []

/-- `int startbuf` as a file offset in items (rewind.c:1906-1910): the value is cut to 32
bits; a negative offset reads nothing.  `none` stands for the latter and for a position
that does not fit. -/
def startbuf (cf : Cfg) (pos : Nat) : Option Nat :=
  if pos < 2 ^ 31 then some (pos - pos % cf.blk) else none

/-- The block of items the checkpoint reads from: the one in memory, or the one read from
the file now (rewind.c:1904-1914). -/
def ckBuf (cf : Cfg) (q : Q α) (pos : Nat) : Option (Nat → Option α) → Nat → Option α
  | some b => b
  | none => match startbuf cf pos with
    | some s => fun i => q.disk (s + i)
    | none => fun _ => none

/-- One step of the checkpoint: it begins (rewind.c:1886-1892; a new file, so nothing is
written yet), or writes one item, or goes to the next loop.  `checkpoint_write_rewind_item`
(checkpoint.c:1294-1323) ignores an empty slot.  Simplified: it also ignores the items
that hold subtransactions and transactions without `oxid`, which are kept here. -/
def ckStep (cf : Cfg) (q : Q α) (k : Ck α) : Ck α :=
  match k.phase with
  | 0 => { pos := max q.c k.pos, phase := 1, buf := none, written := [] }
  | 1 =>
    if k.pos < q.r then
      { k with written := k.written ++ (q.comp (k.pos % cf.size)).toList, pos := k.pos + 1 }
    else { k with phase := 2 }
  | 2 =>
    if k.pos < q.e then
      let b := ckBuf cf q k.pos k.buf
      { k with written := k.written ++ (b (k.pos % cf.blk)).toList, pos := k.pos + 1
               buf := if (k.pos + 1) % cf.blk = 0 then none else some b }
    else { k with phase := 3 }
  | _ =>
    if k.pos < q.af then
      { k with written := k.written ++ (q.add (k.pos % cf.size)).toList, pos := k.pos + 1 }
    else { k with phase := 0 }

/-- The checkpoint and everything else: a step of the checkpoint or an action on the queue. -/
inductive CkAct (α : Type) where
  | ck
  | act (a : Act α)

/-- Eviction takes `rewindCheckpointLock` in shared mode (rewind.c:1440), the checkpoint in
exclusive mode (1886), so no eviction runs during a checkpoint.  The worker's restoring and
completing take no such lock (1090-1196). -/
def ckRun (cf : Cfg) : Q α × Ck α → List (CkAct α) → Option (Q α × Ck α)
  | s, [] => some s
  | (q, k), .ck :: as => ckRun cf (q, ckStep cf q k) as
  | (q, k), .act a :: as =>
    match a with
    | .evict => if k.phase ≠ 0 then none else (step cf q a).bind (fun q' => ckRun cf (q', k) as)
    | .clear => if k.phase ≠ 0 then none else (step cf q a).bind (fun q' => ckRun cf (q', k) as)
    | a => (step cf q a).bind (fun q' => ckRun cf (q', k) as)

end

/-! ### Commit order -/

/-- Transactions by number: `committed` in the order in which they got their commit
sequence number (`current_oxid_commit`, undo.c:2675-2679), `queued` in the order in which
they reserved their place in the rewind queue (undo.c:2690, rewind.c:1630). -/
structure Ord where
  committed : List Nat
  queued : List Nat
  deriving DecidableEq, Repr

inductive OrdAct where
  | commit (i : Nat)
  | enqueue (i : Nat)

/-- A backend commits, then puts its transaction into the queue; no lock spans the two
(undo.c:2679-2690). -/
def ordStep (s : Ord) : OrdAct → Option Ord
  | .commit i => if i ∈ s.committed then none else some { s with committed := s.committed ++ [i] }
  | .enqueue i => if i ∈ s.committed ∧ i ∉ s.queued then some { s with queued := s.queued ++ [i] } else none

def ordRun : Ord → List OrdAct → Option Ord
  | s, [] => some s
  | s, a :: as => (ordStep s a).bind (fun s' => ordRun s' as)

/-! ### Undo kept for the queue -/

/-- An entry of the queue as far as undo is concerned: the transaction, the beginning of
its undo, and `minRetainLocation` once it was filled in. -/
structure REnt where
  id : Nat
  undo : Nat
  retain : Option Nat
  deriving DecidableEq, Repr

/-- `active`: transactions that still hold their undo, with its beginning
(`transactionUndoRetainLocation`); `minProc` is `minProcRetainLocation`, `last` the end of
the undo log, `bound` is `minRewindRetainLocation`: undo below it can be discarded
(undo.c:665, 1873).  `done` entries of `queue` are completed. -/
structure Ret where
  active : List (Nat × Nat)
  minProc : Nat
  last : Nat
  queue : List REnt
  done : Nat
  bound : Nat
  deriving DecidableEq, Repr

inductive RetAct where
  | begin (i n : Nat)
  | reserve (i : Nat)
  | fill (i : Nat)
  | finish (i : Nat)
  | update
  | complete

/-- Set the recorded location of a transaction. -/
def setRetain (l : List REnt) (i v : Nat) : List REnt :=
  l.map (fun e => if e.id = i then { e with retain := some v } else e)

/-- `begin`: the first undo record of a transaction, `n` bytes; its retain location is the
end of the log before it (undo.c:1102-1117).  `reserve`: rewind.c:1630.  `fill`:
`minRetainLocation := minProcRetainLocation` (rewind.c:1785).  `finish`: the transaction
gives its location up, after it was put into the queue (undo.c:1569-1576, 2690-2805).
`update`: `update_min_undo_locations` (undo.c:625-657), the minimum over the active
transactions, never going back.  `complete`: the worker, rewind.c:1379.
Simplified: one undo log; snapshots retain nothing; the worker's completion of an entry is
one action. -/
def retStep (s : Ret) : RetAct → Option Ret
  | .begin i n =>
    if i ∈ s.active.map Prod.fst ∨ i ∈ s.queue.map REnt.id then none
    else some { s with active := s.active ++ [(i, s.last)], last := s.last + n }
  | .reserve i =>
    if i ∈ s.queue.map REnt.id then none
    else match s.active.lookup i with
      | some u => some { s with queue := s.queue ++ [⟨i, u, none⟩] }
      | none => none
  | .fill i =>
    if s.queue.any (fun e => e.id = i && e.retain.isNone) && (s.active.lookup i).isSome then
      some { s with queue := setRetain s.queue i s.minProc }
    else none
  | .finish i =>
    if s.queue.any (fun e => e.id = i && e.retain.isSome) then
      some { s with active := s.active.filter (fun a => a.1 ≠ i) }
    else none
  | .update =>
    some { s with minProc := max s.minProc (s.active.foldl (fun m a => min m a.2) s.last) }
  | .complete =>
    match s.queue[s.done]? with
    | some e =>
      match e.retain with
      | some v => some { s with bound := v, done := s.done + 1 }
      | none => none
    | none => none

def retRun : Ret → List RetAct → Option Ret
  | s, [] => some s
  | s, a :: as => (retStep s a).bind (fun s' => retRun s' as)

/-- Everything empty. -/
def Ret.init : Ret := { active := [], minProc := 0, last := 0, queue := [], done := 0, bound := 0 }

/-! ### Stopping the worker -/

/-- Where the worker is (rewind.c:1245-1420). -/
inductive WPc where
  /-- in `WaitLatch` (1255) -/
  | sleep
  /-- at the head of the inner loop (1264) -/
  | head
  /-- in `try_restore_evicted_rewind_page` before the item, waiting for the lock (1283) -/
  | restore1
  /-- looking at the oldest item (1286) -/
  | item
  /-- in `try_restore_evicted_rewind_page` after the item, waiting for the lock (1417) -/
  | restore2
  /-- left the loop (1274) -/
  | stopped
  deriving DecidableEq, Repr

/-- `n` items are in the queue.  `locked`: the rewinding backend holds `rewindEvictLock`
(rewind.c:846); `req` / `ack` are `rewindWorkerStopRequested` / `rewindWorkerStopped`. -/
structure Hs where
  pc : WPc
  n : Nat
  locked : Bool
  req : Bool
  ack : Bool
  deriving DecidableEq, Repr

inductive HsAct where
  /-- the worker takes a step; the flag is what the data decide: at `head` whether the
  complete buffer is empty (1277), at `item` whether the item is old enough (1343) -/
  | worker (b : Bool)
  /-- another backend commits -/
  | commit
  /-- the rewinding backend takes the lock (846) -/
  | lock
  /-- the rewinding backend asks the worker to stop (849) -/
  | ask

/-- One step.  Simplified: the worker takes the lock for restoring only when nobody else
has it and gives it back in the same step. -/
def hsStep (s : Hs) : HsAct → Option Hs
  | .worker b =>
    match s.pc with
    | .sleep => some { s with pc := .head }
    | .head =>
      if s.n = 0 then some { s with pc := .sleep }
      else if s.req then some { s with pc := .stopped, ack := true }
      else some { s with pc := if b then .restore1 else .item }
    | .restore1 => if s.locked then none else some { s with pc := .item }
    | .item => if b then some { s with pc := .restore2, n := s.n - 1 } else some { s with pc := .sleep }
    | .restore2 => if s.locked then none else some { s with pc := .head }
    | .stopped => none
  | .commit => some { s with n := s.n + 1 }
  | .lock => if s.locked then none else some { s with locked := true }
  | .ask => if s.locked then some { s with req := true } else none

def hsRun : Hs → List HsAct → Option Hs
  | s, [] => some s
  | s, a :: as => (hsStep s a).bind (fun s' => hsRun s' as)

end Verif.Rewind
