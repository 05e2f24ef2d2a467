/-!
# Snapshots, commits, aborts and the visibility of changes

Any number of sessions, interleaved at every access to shared memory.  A look-up in the map of
transaction statuses is one step here; what it takes for the code to look like that is the
subject of `Verif/OxidMap` (properties C19, C20).
-/

namespace Verif.Snapshots

/-- The status of a transaction in the map (`src/transam/oxid.c:43-56`): not started, in
progress, in progress with the mark `COMMITSEQNO_STATUS_CSN_COMMITTING`, committed with a
number, aborted. -/
inductive Status where
  | none
  | running
  | committing
  | committed (csn : Nat)
  | aborted
deriving DecidableEq

/-- Committed or aborted (`src/transam/oxid.c:1855-1857`). -/
def Status.finished : Status → Bool
  | .committed _ => true
  | .aborted => true
  | _ => false

/-- One number per undo log (`include/orioledb.h:209-224`, `UndoLogsCount` is three: rows, pages,
system trees). -/
structure Locs where
  row : Nat
  page : Nat
  sys : Nat
deriving DecidableEq

/-- The number for log `i`.  include/orioledb.h:209-224. -/
def Locs.of (l : Locs) : Nat → Nat
  | 0 => l.row
  | 1 => l.page
  | _ => l.sys

/-- A snapshot (`csnSnapshotData` and the undo locations of `SnapshotData`, set in
`src/transam/undo.c:3538-3554`), with the times when its taking began and ended. -/
structure Snap where
  xmin : Nat
  csn : Nat
  loc : Locs
  began : Nat
  ended : Nat
deriving DecidableEq

/-- Where a session is in its transaction.
* `run x`: transaction `x` in progress.
* `marked x`: after `current_oxid_precommit` (`src/transam/oxid.c:1806-1818`).
* `numbered x n`: after taking the commit number (`src/transam/undo.c:2675-2677`).
* `undoing x`: in `apply_undo_stack` of an abort (`src/transam/undo.c:2748-2751`).
* `late x`: in `apply_undo_stack` of the abort of an autonomous transaction, which comes after
  the change of status (`src/transam/undo.c:3146-3148`). -/
inductive TxPc where
  | none
  | run (x : Nat)
  | marked (x : Nat)
  | numbered (x n : Nat)
  | undoing (x : Nat)
  | late (x : Nat)
deriving DecidableEq

/-- Where a session is in taking or using a snapshot.
* `take1`: undo locations read (`src/transam/undo.c:3538-3540`).
* `take2`: `runXmin` read (`3541`).
* `take3`: own `xmin` published (`3542-3544`).
* `page`: about to read change `k` of transaction `x` off the page
  (`o_find_tuple_version`, `src/btree/iterator.c:719-721`).
* `check`, `map`: in the loop of `oxid_match_snapshot` (`src/transam/oxid.c:2105-2112`, `2114`). -/
inductive RdPc where
  | idle
  | take1 (began : Nat) (loc : Locs)
  | take2 (began : Nat) (loc : Locs) (xmin : Nat)
  | take3 (began : Nat) (loc : Locs) (xmin : Nat)
  | page (sn : Snap) (x k : Nat)
  | check (sn : Snap) (x k : Nat)
  | map (sn : Snap) (x k : Nat)
deriving DecidableEq

/-- What can be observed.
* `commit t x ks`: at time `t` transaction `x` committed; its changes are `ks`.
* `abort x`: transaction `x` aborted.
* `took sn`: a snapshot was taken.
* `look sn x k r`: change `k` of transaction `x` was looked at with a snapshot; `r`: seen.
Auxiliary of the model, without counterpart in /repo. -/
inductive Ev where
  | commit (t x : Nat) (ks : List Nat)
  | abort (x : Nat)
  | took (sn : Snap)
  | look (sn : Snap) (x k : Nat) (r : Bool)
deriving DecidableEq

/-- Shared memory and sessions.
* `next`, `runXmin`, `glob`: `nextXid`, `runXmin`, `globalXmin` (`include/transam/oxid.h:26-52`).
* `nextCsn`: `nextCommitSeqNo`.
* `st`: the map of statuses.
* `chg x`: the changes of transaction `x` that are in the trees.
* `low`: `minProcTransactionRetainLocation` of each undo log (`src/transam/undo.c:1152`).
* `pxmin p`: `oProcData[p].xmin`, `none` for `InvalidOXid`.
* `adv`: `advance_global_xmin` in progress, under its spinlock: next process to look at, and the
  minimum so far (`src/transam/oxid.c:1458-1474`).
* `fresh`, `active`, `reg`: the session's snapshot just taken, its active and its registered
  snapshots.
* `finAt`, `clock`, `tr`: only observe. -/
structure St where
  next : Nat
  runXmin : Nat
  glob : Nat
  nextCsn : Nat
  st : Nat → Status
  chg : Nat → List Nat
  low : Locs
  pxmin : Nat → Option Nat
  adv : Option (Nat × Nat)
  tx : Nat → TxPc
  rd : Nat → RdPc
  fresh : Nat → Option Snap
  active : Nat → List Snap
  reg : Nat → List Snap
  finAt : Nat → Nat → Bool
  clock : Nat
  tr : List Ev

/-- Function update.  Auxiliary of the model, without counterpart in /repo. -/
def upd {α : Type} (f : Nat → α) (i : Nat) (v : α) : Nat → α := fun j => if j = i then v else f j

/-- The start: no transaction has been started.  `n`: the next transaction id and commit number
after a restart.  src/transam/oxid.c:410-455. -/
def init (n : Nat) : St where
  next := n
  runXmin := n
  glob := n
  nextCsn := n + 1
  st := fun x => if x < n then .committed 0 else .none
  chg := fun _ => []
  low := ⟨0, 0, 0⟩
  pxmin := fun _ => none
  adv := none
  tx := fun _ => .none
  rd := fun _ => .idle
  fresh := fun _ => none
  active := fun _ => []
  reg := fun _ => []
  finAt := fun _ _ => false
  clock := 0
  tr := []

/-- Actions.  `p` is a session.
* `begin p`: `get_current_oxid`.
* `change p k`: change `k` is made in a tree; `undoOne p`: the newest change is undone, by a
  rollback to a savepoint or within an abort.
* `precommit p`, `number p`, `store p`: the three steps of a commit.
* `abort p`: an abort begins; `aborted p`: the status becomes aborted, once all is undone.
* `abortAuto p`: the abort of an autonomous transaction, which changes the status first;
  `lateUndo p`: undoing after that.
* `raiseRun`: one step of `advance_run_xmin`; `advStart`, `advGo`: `advance_global_xmin`.
* `raiseLow l`: `update_min_undo_locations`.
* `take p`: a snapshot is begun to be taken; `rdGo p`: the next step of taking or looking.
* `register p`, `activate p`: the snapshot just taken is registered, or made active;
  `activateReg p i`: a registered one is.
* `deregister p i`, `pop p`: and dropped.
* `reset p i j k`: `orioledb_reset_xmin_hook`; the heaps of the three undo logs have the
  registered snapshots with these positions on top.
* `look p i a x k`: change `k` of transaction `x` is looked at with the `i`-th active (`a`) or
  registered snapshot.  The lines are given at the functions below. -/
inductive Act where
  | begin (p : Nat)
  | change (p k : Nat)
  | undoOne (p : Nat)
  | precommit (p : Nat)
  | number (p : Nat)
  | store (p : Nat)
  | abort (p : Nat)
  | aborted (p : Nat)
  | abortAuto (p : Nat)
  | lateUndo (p : Nat)
  | raiseRun
  | advStart
  | advGo
  | raiseLow (l : Locs)
  | take (p : Nat)
  | rdGo (p : Nat)
  | register (p : Nat)
  | activate (p : Nat)
  | activateReg (p i : Nat)
  | deregister (p i : Nat)
  | pop (p : Nat)
  | reset (p i j k : Nat)
  | look (p i : Nat) (a : Bool) (x k : Nat)

/-- `get_current_oxid` (`src/transam/oxid.c:1619-1740`).  Simplified: taking the id and storing
the first status are one step; nobody looks up an id in between, as it has made no change. -/
def begin_ (s : St) (p : Nat) : St :=
  if s.tx p = .none then
    { s with
      next := s.next + 1
      st := upd s.st s.next .running
      tx := upd s.tx p (.run s.next) }
  else s

/-- A change in a tree by the transaction in progress.  Simplified: rows are left out, a change
is a number.  src/btree/insert.c:1579-1763. -/
def change (s : St) (p k : Nat) : St :=
  match s.tx p with
  | .run x => { s with chg := upd s.chg x (k :: s.chg x) }
  | _ => s

/-- One item of `apply_undo_stack` or `rollback_to_savepoint` (`src/transam/undo.c:2748-2751`,
`2922-2958`). -/
def undoOne (s : St) (p : Nat) : St :=
  match s.tx p with
  | .run x => { s with chg := upd s.chg x (s.chg x).tail }
  | .undoing x => { s with chg := upd s.chg x (s.chg x).tail }
  | _ => s

/-- `current_oxid_precommit` (`src/transam/oxid.c:1806-1818`, called at
`src/transam/undo.c:2606-2607`, `2672-2673`, `3187`). -/
def precommit (s : St) (p : Nat) : St :=
  match s.tx p with
  | .run x =>
    { s with
      st := upd s.st x .committing
      tx := upd s.tx p (.marked x) }
  | _ => s

/-- Taking the commit number (`src/transam/undo.c:2675-2677`, `3188`).  With a heap transaction
PostgreSQL takes it, after `XACT_EVENT_PRE_PROC_ARRAY`, thus also after the mark. -/
def number (s : St) (p : Nat) : St :=
  match s.tx p with
  | .marked x =>
    { s with
      nextCsn := s.nextCsn + 1
      tx := upd s.tx p (.numbered x s.nextCsn) }
  | _ => s

/-- `current_oxid_commit` (`src/transam/oxid.c:1893-1911`) up to the change of status; what
follows, `advance_run_xmin`, is `raiseRun`.  `RETAINED_FOR_REWIND` is left out. -/
def store (s : St) (p : Nat) : St :=
  match s.tx p with
  | .numbered x n =>
    { s with
      st := upd s.st x (.committed n)
      tx := upd s.tx p .none
      tr := .commit s.clock x (s.chg x) :: s.tr }
  | _ => s

/-- `XACT_EVENT_ABORT` up to `current_oxid_clear_committing` (`src/transam/undo.c:2714-2748`,
`src/transam/oxid.c:1974-2006`).  An abort after the commit number is taken is not possible:
the code is in a critical section. -/
def abort (s : St) (p : Nat) : St :=
  match s.tx p with
  | .run x => { s with tx := upd s.tx p (.undoing x) }
  | .marked x =>
    { s with
      st := upd s.st x .running
      tx := upd s.tx p (.undoing x) }
  | _ => s

/-- `current_oxid_abort` (`src/transam/oxid.c:1913-1954`) after `apply_undo_stack`
(`src/transam/undo.c:2750-2761`). -/
def aborted (s : St) (p : Nat) : St :=
  match s.tx p with
  | .undoing x =>
    if s.chg x = [] then
      { s with
        st := upd s.st x .aborted
        tx := upd s.tx p .none
        tr := .abort x :: s.tr }
    else s
  | _ => s

/-- `abort_autonomous_transaction` up to `current_oxid_abort` (`src/transam/undo.c:3136-3146`). -/
def abortAuto (s : St) (p : Nat) : St :=
  match s.tx p with
  | .run x =>
    { s with
      st := upd s.st x .aborted
      tx := upd s.tx p (.late x)
      tr := .abort x :: s.tr }
  | _ => s

/-- And its `apply_undo_stack` (`src/transam/undo.c:3147-3148`). -/
def lateUndo (s : St) (p : Nat) : St :=
  match s.tx p with
  | .late x =>
    if s.chg x = [] then { s with tx := upd s.tx p .none }
    else { s with chg := upd s.chg x (s.chg x).tail }
  | _ => s

/-- One increment of `advance_run_xmin` (`src/transam/oxid.c:1841-1861`).  Simplified: it may
happen whenever the transaction at `runXmin` is finished. -/
def raiseRun (s : St) : St :=
  if s.runXmin < s.next ∧ (s.st s.runXmin).finished = true then { s with runXmin := s.runXmin + 1 }
  else s

/-- `advance_global_xmin` takes the spinlock and reads `runXmin` (`src/transam/oxid.c:1458-1463`). -/
def advStart (s : St) : St :=
  match s.adv with
  | none => { s with adv := some (0, s.runXmin) }
  | some _ => s

/-- The next process is looked at (`src/transam/oxid.c:1465-1473`), or, at the end, `globalXmin`
is raised (`1483-1491`) and the spinlock released.  The lower bound for rewind is left out; so
is the rest of the function, which is in `Verif/OxidMap`.  `procs` is `max_procs`. -/
def advGo (procs : Nat) (s : St) : St :=
  match s.adv with
  | none => s
  | some (i, g) =>
    if i < procs then
      match s.pxmin i with
      | some m => { s with adv := some (i + 1, if m < g then m else g) }
      | none => { s with adv := some (i + 1, g) }
    else
      { s with
        glob := if s.glob < g then g else s.glob
        adv := none }

/-- `orioledb_snapshot_hook` begins (`src/transam/undo.c:3506-3540`).  Simplified: the three
undo locations are read at once; the protocol of `set_my_snapshot_retain_location` is left
out. -/
def take (s : St) (p : Nat) : St :=
  if s.rd p = .idle then { s with rd := upd s.rd p (.take1 s.clock s.low) } else s

/-- The answer of a look (`src/btree/iterator.c:811-832`). -/
def answer (s : St) (p : Nat) (sn : Snap) (x k : Nat) (r : Bool) : St :=
  { s with
    rd := upd s.rd p .idle
    tr := .look sn x k r :: s.tr }

/-- The next step of a session.
* Taking a snapshot: `src/transam/undo.c:3541-3554`.
* Looking: the change is read off the page; if it is there, `oxid_match_snapshot`
  (`src/transam/oxid.c:2087-2142`) and the comparison (`src/btree/iterator.c:811-822`).  `map_oxid`
  answers frozen below `globalXmin`. -/
def rdGo (s : St) (p : Nat) : St :=
  match s.rd p with
  | .idle => s
  | .take1 b l => { s with rd := upd s.rd p (.take2 b l s.runXmin) }
  | .take2 b l m =>
    { s with
      rd := upd s.rd p (.take3 b l m)
      pxmin := upd s.pxmin p (some ((s.pxmin p).getD m)) }
  | .take3 b l m =>
    { s with
      rd := upd s.rd p .idle
      fresh := upd s.fresh p (some ⟨m, s.nextCsn, l, b, s.clock⟩)
      finAt := upd s.finAt s.clock (fun x => (s.st x).finished)
      tr := .took ⟨m, s.nextCsn, l, b, s.clock⟩ :: s.tr }
  | .page sn x k =>
    if k ∈ s.chg x then { s with rd := upd s.rd p (.check sn x k) } else answer s p sn x k false
  | .check sn x k =>
    if x < sn.xmin ∨ x < s.glob then answer s p sn x k true
    else { s with rd := upd s.rd p (.map sn x k) }
  | .map sn x k =>
    if x < s.glob then answer s p sn x k true
    else
      match s.st x with
      | .none => answer s p sn x k false
      | .running => answer s p sn x k false
      | .committing => { s with rd := upd s.rd p (.check sn x k) }
      | .committed n => answer s p sn x k (decide (n < sn.csn))
      | .aborted => answer s p sn x k false

/-- `undo_snapshot_register_hook` (`src/transam/undo.c:3478-3484`). -/
def register (s : St) (p : Nat) : St :=
  match s.rd p, s.fresh p with
  | .idle, some sn => { s with reg := upd s.reg p (sn :: s.reg p) }
  | _, _ => s

/-- PostgreSQL makes the snapshot active (`ActiveSnapshotSet`, `src/transam/undo.c:2384`). -/
def activate (s : St) (p : Nat) : St :=
  match s.rd p, s.fresh p with
  | .idle, some sn => { s with active := upd s.active p (sn :: s.active p) }
  | _, _ => s

/-- The same with a registered snapshot.  PostgreSQL, `PushActiveSnapshot`. -/
def activateReg (s : St) (p i : Nat) : St :=
  match s.rd p, (s.reg p)[i]? with
  | .idle, some sn => { s with active := upd s.active p (sn :: s.active p) }
  | _, _ => s

/-- `undo_snapshot_deregister_hook` (`src/transam/undo.c:3486-3503`). -/
def deregister (s : St) (p i : Nat) : St :=
  if s.rd p = .idle then { s with reg := upd s.reg p ((s.reg p).eraseIdx i) } else s

/-- An active snapshot is dropped.  PostgreSQL, `PopActiveSnapshot`. -/
def pop (s : St) (p : Nat) : St :=
  if s.rd p = .idle then { s with active := upd s.active p (s.active p).tail } else s

/-- On top of the heap of undo log `l`: none of the registered snapshots has a smaller location
(`undoLocCmp`, `src/transam/undo.c:3464-3476`). -/
def top (reg : List Snap) (l : Nat) (sn : Snap) : Bool :=
  reg.all fun b => decide (sn.loc.of l ≤ b.loc.of l)

/-- `orioledb_reset_xmin_hook` (`src/transam/undo.c:2376-2411`), as far as `xmin` goes. -/
def reset (s : St) (p i j k : Nat) : St :=
  if s.rd p = .idle ∧ s.active p = [] then
    match s.reg p with
    | [] =>
      { s with
        pxmin := upd s.pxmin p none
        fresh := upd s.fresh p none }
    | _ :: _ =>
      match (s.reg p)[i]?, (s.reg p)[j]?, (s.reg p)[k]? with
      | some a, some b, some d =>
        if top (s.reg p) 0 a && top (s.reg p) 1 b && top (s.reg p) 2 d then
          { s with
            pxmin := upd s.pxmin p
              ((s.pxmin p).map fun m =>
                if m < min a.xmin (min b.xmin d.xmin) then min a.xmin (min b.xmin d.xmin) else m)
            fresh := upd s.fresh p none }
        else s
      | _, _, _ => s
  else s

/-- A look begins (`o_find_tuple_version`, `src/btree/iterator.c:703-721`).  Changes of the
session's own transaction in progress are seen by other rules (`784-803`), not modelled. -/
def look (s : St) (p i : Nat) (a : Bool) (x k : Nat) : St :=
  match s.rd p, (if a then s.active p else s.reg p)[i]? with
  | .idle, some sn => { s with rd := upd s.rd p (.page sn x k) }
  | _, _ => s

/-- One action.  The lines are given at the functions called. -/
def act (procs : Nat) (s : St) : Act → St
  | .begin p => begin_ s p
  | .change p k => change s p k
  | .undoOne p => undoOne s p
  | .precommit p => precommit s p
  | .number p => number s p
  | .store p => store s p
  | .abort p => abort s p
  | .aborted p => aborted s p
  | .abortAuto p => abortAuto s p
  | .lateUndo p => lateUndo s p
  | .raiseRun => raiseRun s
  | .advStart => advStart s
  | .advGo => advGo procs s
  | .raiseLow l => { s with low := l }
  | .take p => if p < procs then take s p else s
  | .rdGo p => rdGo s p
  | .register p => register s p
  | .activate p => activate s p
  | .activateReg p i => activateReg s p i
  | .deregister p i => deregister s p i
  | .pop p => pop s p
  | .reset p i j k => reset s p i j k
  | .look p i a x k => look s p i a x k

/-- One action; time goes on.  Auxiliary of the model, without counterpart in /repo. -/
def step (procs : Nat) (s : St) (a : Act) : St :=
  let s' := act procs s a
  { s' with clock := s'.clock + 1 }

/-- A run.  Auxiliary of the model, without counterpart in /repo. -/
def runActs (procs : Nat) (s : St) : List Act → St
  | [] => s
  | a :: as => runActs procs (step procs s a) as

end Verif.Snapshots
