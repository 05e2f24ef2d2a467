/-!
# Logical transaction ids

Model of the allocation of 32-bit logical transaction ids
(src/transam/oxid.c:457-768, 1864-1954 and src/transam/undo.c:2988-3065, 3112-3214).

Not modelled: the `useHeap` flag of a context and the WAL records written when an id
is acquired (oxid.c:559-581); recovery (`RecoveryInProgress()` is taken to be false);
memory allocation failures.  Atomic operations on a word of the shared map are single
steps, everything a process does to its own memory between two of them is one step.
-/

namespace Verif.LogicalXid

/-- All bits of a 32-bit word. -/
def ones : Nat := 4294967295

/-- `(~value) & (value + 1)` on 32-bit words: src/transam/oxid.c:488. -/
def lowZero (v : Nat) : Nat := (ones - v) &&& ((v + 1) % 4294967296)

/-- `TransactionIdRetreat` as used at src/transam/oxid.c:514: step back, skipping the
reserved ids 0, 1, 2 (PostgreSQL's access/transam.h). -/
def retreat (x : Nat) : Nat := if x ≤ 3 then ones else x - 1

/-- The logical id for map position `num`: src/transam/oxid.c:513-534.  `d` is the
number of positions (`divider`). -/
def logicalId (d xmin num : Nat) : Nat :=
  let r := retreat xmin
  let sub := if r % d > num then r % d - num else r % d + (d - num)
  if r ≥ 3 + sub then r - sub else (ones - ones % d) - (d - num)

/-- What a process does with the id it gets.
* `ctx`: `get_current_oxid` and `ensure_current_logical_xid` store it as the current
  one (src/transam/oxid.c:1735, 604-605);
* `sub n`: `assign_subtransaction_logical_xid` pushes the current one tagged with
  subtransaction `n` first (src/transam/oxid.c:621-639). -/
inductive Dest
  | ctx
  | sub (n : Nat)
deriving DecidableEq, Repr

/-- What a process has still to do inside the function it is executing.
The lines are given at the constructors, from src/transam/oxid.c:482 on. -/
inductive Task
  /-- about to read word `i` of the map, `k` wraps so far: src/transam/oxid.c:482-500 -/
  | scan (d : Dest) (i k : Nat)
  /-- about to `fetch_or` bit `b` into word `i`: src/transam/oxid.c:502-510 -/
  | take (d : Dest) (i k b : Nat)
  /-- about to call `ensure_current_logical_xid`: src/transam/undo.c:3016 -/
  | ensure
  /-- about to call `assign_subtransaction_logical_xid`: src/transam/undo.c:3017 -/
  | assign (n : Nat)
  /-- about to release the current id at the end of a subtransaction:
  src/transam/oxid.c:689 and 754.  `heap`: a heap transaction id exists. -/
  | releaseSub (n : Nat) (heap : Bool)
  /-- the id is released; the SWITCH_LOGICAL_XID / JOINT_COMMIT records are about to
  be written: src/transam/oxid.c:691-713 -/
  | recordSub (n : Nat)
  /-- the id is released; about to restore the parent's: src/transam/oxid.c:717, 756 -/
  | restore (n : Nat)
  /-- inside `release_assigned_logical_xids`: src/transam/oxid.c:1864-1891 -/
  | releaseAll
  /-- about to end an autonomous transaction: src/transam/undo.c:3159-3163, 3208-3212 -/
  | endAuto
deriving DecidableEq, Repr

/-- A process.  Backend-local variables, src/transam/oxid.c:105-145. -/
structure Proc where
  /-- `OXidIsValid(curOxid)` -/
  oxid : Bool := false
  /-- `logicalXidContext.xid`, 0 is InvalidTransactionId (src/transam/oxid.c:108) -/
  ctx : Nat := 0
  /-- `prevLogicalXids`: saved id and subtransaction, last pushed at the end
  (src/transam/oxid.c:137-145) -/
  stack : List (Nat × Nat) := []
  /-- saved state of the transactions suspended by autonomous ones, innermost first;
  its length is `autonomousNestingLevel` (src/transam/undo.c:3112-3133) -/
  saved : List (Bool × Nat) := []
  todo : List Task := []
deriving DecidableEq, Repr

/-- The shared map, the processes, and the WAL records carrying a logical id in the
order written (process, id).  Simplified: a record counts as written when the process
adds it to its local buffer.  Map: src/transam/oxid.c:184, 420, 444-445. -/
structure St where
  map : List Nat
  procs : List Proc
  wal : List (Nat × Nat)
deriving DecidableEq, Repr

/-- src/transam/oxid.c:444-445: all words zero. -/
def init (items n : Nat) : St := ⟨List.replicate items 0, List.replicate n {}, []⟩

/-- The number of words of the map.  src/transam/oxid.c:444-445. -/
def St.items (s : St) : Nat := s.map.length

/-- The number of positions: src/transam/oxid.c:465. -/
def St.divider (s : St) : Nat := s.map.length * 32

/-- First word looked at: src/transam/oxid.c:466. -/
def startTask (s : St) (p : Nat) (d : Dest) : Task := .scan d (p % s.items) 0

/-- `prev_logical_xid_pushed_by`: src/transam/oxid.c:151-162. -/
def pushedBy (pr : Proc) (n : Nat) : Bool :=
  match pr.stack.getLast? with
  | none => false
  | some e => e.2 == n

/-- What a process can begin to do when it is not inside one of the functions.
The functions and lines are given at the constructors, the first is src/transam/oxid.c:1620. -/
inductive Act
  /-- `get_current_oxid()`: src/transam/oxid.c:1620-1740 -/
  | getOxid
  /-- subtransaction `n` starts; `ret` = `have_retained_undo_location()`:
  src/transam/undo.c:3003-3023 -/
  | subStart (n : Nat) (ret : Bool)
  /-- subtransaction `n` commits: src/transam/oxid.c:674-723 -/
  | subCommit (n : Nat) (ret heap : Bool)
  /-- subtransaction `n` aborts: src/transam/oxid.c:725-762 -/
  | subAbort (n : Nat) (ret : Bool)
  /-- `current_oxid_commit`, `current_oxid_abort`: src/transam/oxid.c:1894-1954 -/
  | finish
  /-- `start_autonomous_transaction`: src/transam/undo.c:3112-3133 -/
  | startAuto
  /-- `abort_autonomous_transaction`, `finish_autonomous_transaction`:
  src/transam/undo.c:3136-3214 -/
  | endAuto
  /-- a WAL record carrying the current id is written -/
  | write
  /-- the process performs the next step of the function it is in; `xmin` is the value
  of `RecentXmin` -/
  | step (xmin : Nat)
deriving DecidableEq, Repr

/-- `get_current_oxid`: at nesting level 0 an id is acquired, above it the context is
reset (src/transam/oxid.c:1625, 1724-1736). -/
def beginOxid (s : St) (p : Nat) (pr : Proc) (rest : List Task) : Proc :=
  if pr.oxid then { pr with todo := rest }
  else if pr.saved.isEmpty then { pr with oxid := true, todo := startTask s p .ctx :: rest }
  else { pr with oxid := true, ctx := 0, todo := rest }

/-- The start of an action: only the process's own memory changes; the guards of the
functions cited at `Act`.
src/transam/oxid.c:666-762, 1620-1740, 1894-1954, src/transam/undo.c:3003-3214. -/
def begin (s : St) (p : Nat) (pr : Proc) : Act → Proc
  | .getOxid => beginOxid s p pr []
  | .subStart n ret => if ret then beginOxid s p pr [.ensure, .assign n] else pr
  | .subCommit n ret heap =>
    if ret ∧ pr.ctx ≠ 0 ∧ pushedBy pr n = true then { pr with todo := [.releaseSub n heap] }
    else pr
  | .subAbort n ret =>
    if ret ∧ pr.ctx ≠ 0 ∧ pushedBy pr n = true then { pr with todo := [.releaseSub n false] }
    else pr
  | .finish => if pr.oxid then { pr with oxid := false, todo := [.releaseAll] } else pr
  | .startAuto =>
    { pr with oxid := false, ctx := 0, saved := (pr.oxid, pr.ctx) :: pr.saved }
  | .endAuto =>
    if pr.saved.isEmpty then pr
    else if pr.oxid then { pr with oxid := false, todo := [.releaseAll, .endAuto] }
    else { pr with todo := [.endAuto] }
  | .write => pr
  | .step _ => pr

/-- Store the acquired id (src/transam/oxid.c:604, 1735 and 632-638): see `Dest`. -/
def store (pr : Proc) (x : Nat) : Dest → Proc
  | .ctx => { pr with ctx := x }
  | .sub n => { pr with stack := pr.stack ++ [(pr.ctx, n)], ctx := x }

/-- Clear the bit of id `x`: src/transam/oxid.c:546-553. -/
def clearId (s : St) (x : Nat) : List Nat :=
  let num := x % s.divider
  s.map.set (num / 32) ((s.map[num / 32]?.getD 0) &&& (ones ^^^ 2 ^ (num % 32)))

/-- One step inside a function (the code cited at `Task`): the new map, the process and the id of a WAL record if
one is written.  `rest` is what follows the current task.
src/transam/oxid.c:460-640, 674-762, 1864-1891. -/
def stepTask (s : St) (p xmin : Nat) (pr : Proc) (rest : List Task) :
    Task → List Nat × Proc × Option Nat
  | .scan d i k =>
    -- src/transam/oxid.c:484-501
    let b := lowZero (s.map[i]?.getD 0)
    if b = 0 then
      if i + 1 ≥ s.items then
        if k + 1 > 16 then
          -- elog(ERROR): the functions in progress are left (oxid.c:497-498)
          (s.map, { pr with todo := [] }, none)
        else (s.map, { pr with todo := .scan d 0 (k + 1) :: rest }, none)
      else (s.map, { pr with todo := .scan d (i + 1) k :: rest }, none)
    else (s.map, { pr with todo := .take d i k b :: rest }, none)
  | .take d i k b =>
    -- src/transam/oxid.c:505-510, then 513-534 and the caller's store
    let v := s.map[i]?.getD 0
    if v &&& b = 0 then
      (s.map.set i (v ||| b),
        { store pr (logicalId s.divider xmin (i * 32 + b.log2)) d with todo := rest }, none)
    else (s.map.set i (v ||| b), { pr with todo := .scan d i k :: rest }, none)
  | .ensure =>
    -- src/transam/oxid.c:600
    if pr.ctx = 0 then (s.map, { pr with todo := startTask s p .ctx :: rest }, none)
    else (s.map, { pr with todo := rest }, none)
  | .assign n => (s.map, { pr with todo := startTask s p (.sub n) :: rest }, none)
  | .releaseSub n heap =>
    (clearId s pr.ctx,
      { pr with todo := if heap then .recordSub n :: .restore n :: rest
                        else .restore n :: rest }, none)
  | .recordSub _ => (s.map, { pr with todo := rest }, some pr.ctx)
  | .restore _ =>
    -- src/transam/oxid.c:643-663
    (s.map, { pr with
              ctx := (pr.stack.getLast?.getD (0, 0)).1
              stack := pr.stack.dropLast
              todo := rest }, none)
  | .releaseAll =>
    -- src/transam/oxid.c:1866-1890.  Simplified: an entry leaves the list when its id
    -- is released, not at the end of the loop (the list is private to the process).
    if pr.ctx ≠ 0 then (clearId s pr.ctx, { pr with ctx := 0 }, none)
    else if pr.saved.isEmpty then
      match pr.stack with
      | [] => (s.map, { pr with todo := rest }, none)
      | e :: es =>
        if e.1 ≠ 0 then (clearId s e.1, { pr with stack := es }, none)
        else (s.map, { pr with stack := es }, none)
    else (s.map, { pr with todo := rest }, none)
  | .endAuto =>
    match pr.saved with
    | [] => (s.map, { pr with todo := rest }, none)
    | (o, x) :: sv => (s.map, { pr with
                                oxid := o
                                ctx := x
                                saved := sv
                                todo := rest }, none)

/-- Process `p` performs an action.  An action that begins something is possible only
outside the functions, a `step` only inside.
Auxiliary of the model, without counterpart in /repo. -/
def exec (s : St) (p : Nat) (a : Act) : St :=
  match s.procs[p]? with
  | none => s
  | some pr =>
    match pr.todo, a with
    | [], .write => if pr.ctx = 0 then s else { s with wal := s.wal ++ [(p, pr.ctx)] }
    | [], .step _ => s
    | [], a => { s with procs := s.procs.set p (begin s p pr a) }
    | t :: rest, .step xmin =>
      let r := stepTask s p xmin pr rest t
      { map := r.1
        procs := s.procs.set p r.2.1
        wal := match r.2.2 with | none => s.wal | some x => s.wal ++ [(p, x)] }
    | _ :: _, _ => s

/-- A run.  Auxiliary of the model, without counterpart in /repo. -/
def run (s : St) : List (Nat × Act) → St
  | [] => s
  | (p, a) :: l => run (exec s p a) l

end Verif.LogicalXid
