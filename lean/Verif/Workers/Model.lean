/-!
# The process which reads the log and the processes which apply it

During recovery the startup process reads the log, sends changes to worker processes by the hash of
the key, and settles the transactions (gives them a commit sequence number, or marks them aborted) when
all workers have reached the position of the finish record.  The processes run at the same time; a run
of the model is any interleaving of their moves.

Not modelled: what a change does to the trees (`Verif.Replay`, `Verif.Image`), changes of system trees,
which the startup process makes itself, messages for building indexes and for synchronization before
files are changed, the size of queues, the death of a worker, transactions settled by a record of
PostgreSQL (joint commit).
-/

namespace Verif.Workers

/-- The records of the log: a change by transaction `x` of a key with hash `h`, a savepoint, a rollback
to a savepoint, the end of a transaction.  include/recovery/wal.h. -/
inductive Rec where
  | mod (x h : Nat)
  | sp (x : Nat)
  | rb (x : Nat)
  | fin (x : Nat) (ok : Bool)
deriving DecidableEq, Repr

/-- The transaction of a record. -/
def Rec.xid : Rec → Nat
  | .mod x _ => x
  | .sp x => x
  | .rb x => x
  | .fin x _ => x

/-- The number of workers (`recovery_pool_size_guc`), whether the server takes queries during recovery
(`EnableHotStandby`), the transactions which change system trees (`systree_modified`), those in the
checkpoint's file of transactions (`checkpoint_xid`).  src/recovery/recovery.c:125-185. -/
structure Cfg where
  n : Nat
  hot : Bool
  sys : Nat → Bool
  ckpt : Nat → Bool

/-- The position of the `k`-th record.  src/recovery/recovery.c:4712, 4968. -/
def startp (k : Nat) : Nat := 2 * k + 1

/-- The position of its end: every record is in a WAL record of its own here.  A finish record is the
last one in its WAL record (src/recovery/wal.c:233-320), so this is the same for it. -/
def endp (k : Nat) : Nat := 2 * k + 2

/-- What a message says.  A change names its transaction only if it is another one than that of the
message before.  `RecoveryMsgHeader` and others: include/recovery/internal.h; src/recovery/recovery.c:
5438-5537, 5581-5697. -/
inductive Body where
  | mod (o : Option Nat)
  | sp (x : Nat)
  | rb (x p : Nat)
  | fin (x p : Nat) (ok : Bool)
deriving DecidableEq, Repr

/-- A message; `idx` is the number of the record, which stands for the tuple in the message. -/
structure Msg where
  idx : Nat
  body : Body
deriving DecidableEq, Repr

/-- What the startup process has still to do for the record it has read. -/
inductive Act where
  | flush (w : Nat)
  | ptr (p : Nat)
  | wait (p : Nat)
  | note (x p : Nat) (ok : Bool)
  | now (p x : Nat) (ok : Bool)
deriving DecidableEq, Repr

/-- The state.  Of the startup process: the number of records read, what it has to do, the messages
gathered for each worker (`queue_buf`), the transaction each worker is at (`RecoveryWorkerState.oxid`),
the workers which have changes of a transaction (`used_by`), `finished_list`.  Shared: the queues,
`recovery_ptr`, `commitPtr` of each worker, the transactions settled, in this order.  Of each worker:
`prev_rec_ptr`, whether it has just seen the queue empty, `recovery_oxid`, the changes applied, the
transactions finished. -/
structure St where
  next : Nat
  todo : List Act
  buf : Nat → List Msg
  cache : Nat → Option Nat
  used : Nat → Nat → Bool
  fl : List (Nat × Nat × Bool)
  queue : Nat → List Msg
  ptr : Nat
  commit : Nat → Nat
  settled : List (Nat × Bool)
  prev : Nat → Option Nat
  seen : Nat → Bool
  cur : Nat → Option Nat
  applied : Nat → List (Option Nat × Nat)
  ended : Nat → List Nat

/-- Change one value of a function. -/
def set {α : Type} (f : Nat → α) (x : Nat) (a : α) : Nat → α := fun y => if y = x then a else f y

/-- The beginning.  src/recovery/recovery.c:900-935. -/
def init : St :=
  { next := 0, todo := [], buf := fun _ => [], cache := fun _ => none, used := fun _ _ => false, fl := [],
    queue := fun _ => [], ptr := 0, commit := fun _ => 0, settled := [], prev := fun _ => none,
    seen := fun _ => false, cur := fun _ => none, applied := fun _ => [], ended := fun _ => [] }

/-- The workers which get the message about a savepoint: those with changes of the transaction.
src/recovery/recovery.c:5593-5596, 5629-5632. -/
def users (c : Cfg) (s : St) (x : Nat) : List Nat := (List.range c.n).filter (fun w => s.used x w)

/-- The workers which get the message about the end of a transaction.
src/recovery/recovery.c:5671-5672. -/
def finUsers (c : Cfg) (s : St) (x : Nat) : List Nat :=
  (List.range c.n).filter (fun w => s.used x w || c.ckpt x)

/-- Put a message into the buffers of some workers, and forget which transaction they are at.
src/recovery/recovery.c:5598-5601, 5634-5637, 5677-5687, 5297-5310. -/
def sendAll (s : St) (ws : List Nat) (m : Msg) : St :=
  { s with buf := fun w => if w ∈ ws then s.buf w ++ [m] else s.buf w
           cache := fun w => if w ∈ ws then none else s.cache w }

/-- Send a change to the worker chosen by the hash.  `worker_send_modify`:
src/recovery/recovery.c:5438-5537; `spread_idx_modify`: 5816-5849. -/
def sendMod (c : Cfg) (s : St) (k x h : Nat) : St :=
  let w := h % c.n
  if s.cache w = some x then
    { s with buf := set s.buf w (s.buf w ++ [⟨k, .mod none⟩]) }
  else
    { s with buf := set s.buf w (s.buf w ++ [⟨k, .mod (some x)⟩])
             cache := set s.cache w (some x)
             used := fun y v => if y = x ∧ v = w then true else s.used y v }

/-- The startup process reads the `k`-th record: it puts the messages into its own buffers, which
nobody else sees, and knows what to do then.  With hot standby the buffers are sent at once; then
`recovery_ptr` is set; a rollback to a savepoint, and the end of a transaction which changes system
trees or is in the checkpoint's file, wait for all workers.
src/recovery/recovery.c:4704-4773, 4960-4977, 5581-5697. -/
def read (c : Cfg) (s : St) (k : Nat) (r : Rec) : St :=
  match r with
  | .mod x h => { sendMod c s k x h with next := k + 1, todo := [] }
  | .sp x =>
    { sendAll s (users c s x) ⟨k, .sp x⟩ with
      next := k + 1, todo := if c.hot then (users c s x).map .flush else [] }
  | .rb x =>
    { sendAll s (users c s x) ⟨k, .rb x (startp k)⟩ with
      next := k + 1
      todo := (if c.hot then (users c s x).map .flush else []) ++ [.ptr (startp k), .wait (startp k)] }
  | .fin x ok =>
    { sendAll s (finUsers c s x) ⟨k, .fin x (endp k) ok⟩ with
      next := k + 1
      todo := (if c.hot then (finUsers c s x).map .flush else []) ++
        [.ptr (endp k), if c.sys x || c.ckpt x then .now (startp k) x ok else .note x (startp k) ok] }

/-- Send the buffer of a worker.  `worker_queue_flush`: src/recovery/recovery.c. -/
def flush (s : St) (w : Nat) : St :=
  { s with queue := set s.queue w (s.queue w ++ s.buf w), buf := set s.buf w [] }

/-- Have all workers reached the position?  `workers_synchronize`: src/recovery/recovery.c:5723-5747. -/
def reached (c : Cfg) (s : St) (p : Nat) : Bool := (List.range c.n).all (fun w => decide (p ≤ s.commit w))

/-- One thing the startup process has to do; `none` while it waits.  A transaction with `note` goes to
`finished_list`, one with `now` is settled at once.  src/recovery/recovery.c:2347-2398. -/
def act (c : Cfg) (s : St) (a : Act) (rest : List Act) : Option St :=
  match a with
  | .flush w => some { flush s w with todo := rest }
  | .ptr p => some { s with ptr := p, todo := rest }
  | .wait p => if reached c s p then some { s with todo := rest } else none
  | .note x p ok => some { s with fl := s.fl ++ [(x, p, ok)], todo := rest }
  | .now p x ok =>
    if reached c s p then some { s with settled := s.settled ++ [(x, ok)], todo := rest } else none

/-- A worker takes a message.  src/recovery/worker.c:401-479 (changes), 727-753 (end of a transaction;
`recovery_finish_current_oxid` leaves no current transaction: src/recovery/recovery.c:2407), 770-786
(savepoints). -/
def work (s : St) (w : Nat) (m : Msg) (rest : List Msg) : St :=
  let s := { s with queue := set s.queue w rest, prev := set s.prev w none, seen := set s.seen w false }
  match m.body with
  | .mod o =>
    let x := match o with
      | none => s.cur w
      | some x => some x
    { s with cur := set s.cur w x, applied := set s.applied w (s.applied w ++ [(x, m.idx)]) }
  | .sp x => { s with cur := set s.cur w (some x) }
  | .rb x p => { s with cur := set s.cur w (some x), commit := set s.commit w p }
  | .fin x p _ =>
    { s with cur := set s.cur w none, commit := set s.commit w p
             ended := set s.ended w (s.ended w ++ [x]) }

/-- A worker which has seen the queue empty reads `recovery_ptr`; the value it has read before it saw
the queue empty becomes its `commitPtr`.  src/recovery/worker.c:867-888. -/
def look (s : St) (w : Nat) : St :=
  let s := { s with seen := set s.seen w false }
  if s.commit w < s.ptr then
    match s.prev w with
    | none => { s with prev := set s.prev w (some s.ptr) }
    | some p =>
      { s with commit := set s.commit w p
               prev := set s.prev w (if s.ptr = p then none else some s.ptr) }
  else { s with prev := set s.prev w none }

/-- The startup process settles the transactions of `finished_list` up to the position it has found all
workers at.  `update_proc_retain_undo_location`: src/recovery/recovery.c:3082-3113. -/
def drain (s : St) (p : Nat) : St :=
  { s with settled := s.settled ++ (s.fl.takeWhile (fun e => decide (e.2.1 ≤ p))).map (fun e => (e.1, e.2.2))
           fl := s.fl.dropWhile (fun e => decide (e.2.1 ≤ p)) }

/-- What can happen next.  `send` is a buffer sent because it is full. -/
inductive Move where
  | read
  | act
  | send (w : Nat)
  | work (w : Nat)
  | poll (w : Nat)
  | look (w : Nat)
  | drain (p : Nat)
deriving DecidableEq, Repr

/-- One move; `none` if it cannot happen now.  The position for `drain` may have been found earlier
(`get_workers_commit_ptr`: src/recovery/recovery.c:1421-1460), so it is any one all workers have
reached. -/
def step (c : Cfg) (log : List Rec) (s : St) : Move → Option St
  | .read =>
    match s.todo, log[s.next]? with
    | [], some r => some (read c s s.next r)
    | _, _ => none
  | .act =>
    match s.todo with
    | [] => none
    | a :: rest => act c s a rest
  | .send w => some (flush s w)
  | .work w =>
    match s.queue w with
    | [] => none
    | m :: rest => some (work s w m rest)
  | .poll w => if s.queue w = [] then some { s with seen := set s.seen w true } else none
  | .look w => if s.seen w then some (look s w) else none
  | .drain p => if reached c s p then some (drain s p) else none

/-- A run. -/
def run (c : Cfg) (log : List Rec) (s : St) : List Move → Option St
  | [] => some s
  | m :: ms =>
    match step c log s m with
    | none => none
    | some s' => run c log s' ms

end Verif.Workers
