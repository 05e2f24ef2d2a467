/-!
# The undo stack of a transaction

`src/transam/undo.c`: the items a transaction adds to an undo log form a linked list, newest
first.  Aborting walks the whole list, rolling back to a savepoint walks the part above the
item made for the savepoint, committing walks the list of items that want an action at commit.

One process and one undo log are modelled.  The loops over the logs in `add_subxact_undo_item`
and `undo_subxact_callback` do the same for each log, so what is shown holds for each of them;
`Op.retain` stands for undo written to some other log.  Page-level undo, for which these
functions do nothing, and the separate stacks of autonomous transactions are left out.  So are
the ring the items are stored in (see `UndoLog`), the WAL, and what the callbacks do to the
trees: a callback is recorded as a call.
-/

namespace Verif.UndoStack

/-- An undo location; `none` is `InvalidUndoLocation` (include/orioledb.h:143-148). -/
abbrev Loc := Option Nat

/-- An item of the undo stack (include/transam/undo.h:240-312).  `change` and `onc` are the
items of `undoItemTypeDescrs` without and with `callOnCommit` (undo.c:130-186), `tag` stands
for their contents.  `sub` is `SubXactUndoStackItem`, `branch` is `BranchUndoStackItem`. -/
inductive Item
  | change (tag : Nat) (prev : Loc)
  | onc (tag : Nat) (prev onCommit : Loc)
  | sub (prev prevSub : Loc) (parent : Nat)
  | branch (prev long prevBranch : Loc)
deriving DecidableEq, Repr

/-- `UndoStackItem.prev` (include/transam/undo.h:259-265). -/
def Item.prev : Item → Loc
  | .change _ p => p
  | .onc _ p _ => p
  | .sub p _ _ => p
  | .branch p _ _ => p

/-- `OUndoCallbackStage` (include/transam/undo.h:341-346). -/
inductive Stage
  | preCommit | commit | abort
deriving DecidableEq, Repr

/-- A call of the callback of the item with contents `tag`.  src/transam/undo.c:1319-1363. -/
structure Call where
  stage : Stage
  tag : Nat
deriving DecidableEq, Repr

/-- The call made for an item: `sub` and `branch` items have `o_stub_item_callback`
(undo.c:155-164), which does nothing. -/
def Item.call (g : Stage) : Item → List Call
  | .change t _ => [⟨g, t⟩]
  | .onc t _ _ => [⟨g, t⟩]
  | .sub _ _ _ => []
  | .branch _ _ _ => []

/-- `OnCommitUndoStackItem.onCommitLocation` (include/transam/undo.h:267-271).  An item of
another kind has no such field: `none` of the outer option. -/
def Item.onCommit? : Item → Option Loc
  | .onc _ _ c => some c
  | _ => none

/-- What the process has: the log's contents and its end, the four locations of
`UndoStackSharedLocations`, `minParentSubId` (undo.c:90; 0 is `InvalidSubTransactionId`),
whether `have_retained_undo_location()` holds, PostgreSQL's stack of open subtransaction ids
(innermost first, the top transaction, id 1, last) and its counter, the calls made (oldest
first), and whether a FATAL or PANIC was raised or an item read as another kind. -/
structure St where
  mem : Nat → Option Item
  next : Nat
  location : Loc
  branch : Loc
  subxact : Loc
  onCommit : Loc
  minParent : Nat
  retained : Bool
  subs : List Nat
  lastSub : Nat
  calls : List Call
  failed : Bool

/-- At the start of a session's first transaction; the log may already have any length.
Auxiliary of the model, without counterpart in /repo. -/
def St.init (n : Nat) : St :=
  { mem := fun _ => none, next := n, location := none, branch := none, subxact := none,
    onCommit := none, minParent := 0, retained := false, subs := [1], lastSub := 1,
    calls := [], failed := false }

/-- The location after the loop's body (undo.c:1350-1360): the next item with an action on
commit, or the previous item.  `none` of the outer option: the item has no such field. -/
def Item.after (g : Stage) (i : Item) : Option Loc :=
  match g with
  | .abort => some i.prev
  | _ => i.onCommit?

/-- The update of `*onCommitLocation` in the loop (undo.c:1339-1344); a null pointer behaves
as a location that is never met, `none`. -/
def Item.trackOc (i : Item) (x : Nat) (oc : Loc) : Option Loc :=
  if oc = some x then i.onCommit? else some oc

/-- Does the loop of `walk_undo_range` go on (undo.c:1328)? -/
def goOn (loc to : Loc) : Bool :=
  match loc, to with
  | none, _ => false
  | some _, none => true
  | some x, some t => decide (t < x)

/-- `walk_undo_range` (undo.c:1319-1364): the calls made, the location reached and the new
on-commit location.  `none`: an item does not exist (PANIC in `undo_item_buf_read_item`,
undo.c:1241-1258), is read as another kind, or the loop does not end within `fuel` rounds. -/
def walk (mem : Nat → Option Item) (g : Stage) :
    Nat → Loc → Loc → Loc → Option (List Call × Loc × Loc)
  | 0, loc, to, oc => if goOn loc to then none else some ([], loc, oc)
  | n + 1, loc, to, oc =>
    if goOn loc to then
      match loc with
      | none => none
      | some x =>
        match mem x with
        | none => none
        | some i =>
          match i.trackOc x oc, i.after g with
          | some oc', some loc' =>
            match walk mem g n loc' to oc' with
            | some (cs, r) => some (i.call g ++ cs, r)
            | none => none
          | _, _ => none
    else some ([], loc, oc)

/-- Store an item at a location.  Auxiliary of the model, without counterpart in /repo. -/
def put (mem : Nat → Option Item) (x : Nat) (i : Item) : Nat → Option Item :=
  fun y => if y = x then some i else mem y

/-- `get_undo_record` and `add_new_undo_stack_item` for an ordinary change (undo.c:2248-2269),
also when it is added by another process (`add_new_undo_stack_item_to_process`,
undo.c:2289-2312).  The new location is any one beyond the end of the log: other processes may
have written `gap` bytes meanwhile.  Reserving space makes the retained location valid
(undo.c:1087-1140, 2305-2306). -/
def addChange (s : St) (gap tag : Nat) : St :=
  let x := s.next + gap
  { s with
    mem := put s.mem x (.change tag s.location)
    next := x + 1
    location := some x
    retained := true }

/-- The same for an item whose type has `callOnCommit` (undo.c:2258-2264). -/
def addOnc (s : St) (gap tag : Nat) : St :=
  let x := s.next + gap
  { s with
    mem := put s.mem x (.onc tag s.location s.onCommit)
    next := x + 1
    location := some x
    onCommit := some x
    retained := true }

/-- `add_subxact_undo_item` (undo.c:2812-2843). -/
def addSub (s : St) (gap parent : Nat) : St :=
  let x := s.next + gap
  { s with
    mem := put s.mem x (.sub s.location s.subxact parent)
    next := x + 1
    location := some x
    subxact := some x }

/-- `search_for_undo_sub_location` with `UndoStackFull` (undo.c:2845-2906): the location and
the previous savepoint's location.  `none`: FATAL "subxact goes out of order", or the item does
not exist or is of another kind. -/
def search (mem : Nat → Option Item) (loc : Loc) (parent : Nat) : Option (Loc × Loc) :=
  match loc with
  | none => none
  | some x =>
    match mem x with
    | some (.sub _ q par) => if par = parent then some (some x, q) else none
    | _ => none

/-- `walk_undo_stack` for a rollback to a savepoint, with `o_add_branch_undo_item`
(undo.c:1292-1314, 1418-1497, `toLocation` given, `abortTrx`), followed by
`update_subxact_undo_location` (undo.c:2954-2957). -/
def rollbackTo (s : St) (gap : Nat) (to toSub : Loc) : St :=
  match walk s.mem .abort (s.next + 1) s.location to s.onCommit with
  | none => { s with failed := true }
  | some (cs, loc, oc) =>
    let x := s.next + gap
    { s with
      mem := put s.mem x (.branch loc s.location s.branch)
      next := x + 1
      location := some x
      branch := some x
      onCommit := oc
      subxact := toSub
      calls := s.calls ++ cs }

/-- `undo_subxact_callback` with `SUBXACT_EVENT_START_SUB` (undo.c:3003-3023), called when
PostgreSQL starts a subtransaction inside the innermost open one. -/
def startSub (s : St) (gap : Nat) : St :=
  match s.subs with
  | [] => s
  | parent :: rest =>
    let s1 : St :=
      if s.retained then
        let s2 := addSub s gap parent
        if s.minParent = 0 then { s2 with minParent := parent } else s2
      else s
    { s1 with
      subs := (s.lastSub + 1) :: parent :: rest
      lastSub := s.lastSub + 1 }

/-- `SUBXACT_EVENT_COMMIT_SUB` (undo.c:3025-3028) with
`update_subxact_undo_location_on_commit` (undo.c:2960-2985), called when the innermost open
subtransaction is released. -/
def commitSub (s : St) : St :=
  match s.subs with
  | _ :: parent :: rest =>
    let s1 : St :=
      if s.minParent ≤ parent ∧ s.minParent ≠ 0 then
        match search s.mem s.subxact parent with
        | none => { s with failed := true }
        | some (_, toSub) => { s with subxact := toSub }
      else s
    { s1 with subs := parent :: rest }
  | _ => s

/-- `SUBXACT_EVENT_ABORT_SUB` (undo.c:3030-3057) with `rollback_to_savepoint`
(undo.c:2921-2958), called when the innermost open subtransaction is rolled back.
`ROLLBACK TO` a savepoint aborts all subtransactions down to it and starts a new one. -/
def abortSub (s : St) (gap : Nat) : St :=
  match s.subs with
  | _ :: parent :: rest =>
    let s1 : St :=
      if s.retained then
        if parent < s.minParent ∨ s.minParent = 0 then rollbackTo s gap none none
        else
          match search s.mem s.subxact parent with
          | none => { s with failed := true }
          | some (to, toSub) => rollbackTo s gap to toSub
      else s
    { s1 with subs := parent :: rest }
  | _ => s

/-- The end of `undo_xact_callback` for commit and abort (undo.c:2699-2704, 2754-2783,
2805-2806): `reset_cur_undo_locations`, `minParentSubId`, `free_retained_undo_location`. -/
def reset (s : St) : St :=
  { s with
    location := none
    branch := none
    subxact := none
    onCommit := none
    minParent := 0
    retained := false
    subs := [1]
    lastSub := 1 }

/-- Commit of the transaction: `precommit_undo_stack` (undo.c:1506-1516) in
`XACT_EVENT_PRE_COMMIT`, then `on_commit_undo_stack` (undo.c:1518-1522) in
`XACT_EVENT_COMMIT`. -/
def commit (s : St) : St :=
  match walk s.mem .preCommit (s.next + 1) s.onCommit none none,
      walk s.mem .commit (s.next + 1) s.onCommit none none with
  | some (c1, _), some (c2, _) => reset { s with calls := s.calls ++ c1 ++ c2 }
  | _, _ => reset { s with failed := true }

/-- Abort of the transaction: `apply_undo_stack` without a location (undo.c:1499-1504) in
`XACT_EVENT_ABORT`. -/
def abort (s : St) : St :=
  match walk s.mem .abort (s.next + 1) s.location none s.onCommit with
  | some (cs, _) => reset { s with calls := s.calls ++ cs }
  | none => reset { s with failed := true }

/-- What can happen to the transaction.  `gap`: see `addChange`.
The lines are given at the functions above. -/
inductive Op
  | change (gap tag : Nat)
  | onc (gap tag : Nat)
  | retain
  | start (gap : Nat)
  | release
  | rollback (gap : Nat)
  | commit
  | abort
deriving DecidableEq, Repr

/-- One event (undo.c:2437-2813, 2987-3064).  `retain` is the reservation of space in some
undo log without adding an item to this one. -/
def step (s : St) : Op → St
  | .change gap tag => addChange s gap tag
  | .onc gap tag => addOnc s gap tag
  | .retain => { s with retained := true }
  | .start gap => startSub s gap
  | .release => commitSub s
  | .rollback gap => abortSub s gap
  | .commit => commit s
  | .abort => abort s

/-- A session that starts with a log of length `n`.
Auxiliary of the model, without counterpart in /repo. -/
def run (n : Nat) (ops : List Op) : St := ops.foldl step (St.init n)

/-- `apply_undo_branches` (undo.c:1384-1410): during recovery, undo again what had been rolled
back to savepoints.  `none` as for `walk`, or an item that is not a branch item. -/
def applyBranches (mem : Nat → Option Item) (fuel : Nat) : Nat → Loc → Option (List Call)
  | _, none => some []
  | 0, some _ => none
  | n + 1, some x =>
    match mem x with
    | some (.branch prev long prevBranch) =>
      match walk mem .abort fuel long prev none, applyBranches mem fuel n prevBranch with
      | some (cs, _), some rest => some (cs ++ rest)
      | _, _ => none
    | _ => none

end Verif.UndoStack
