import Verif.UndoStack.Model

/-!
# The undo stack: what is claimed

`want` computes, from the events alone, which callbacks have to be called.  The changes still to
be undone are kept as one list per open savepoint, newest first; nothing here knows about undo
records, locations or subtransaction ids.
-/

namespace Verif.UndoStack

/-- A change that was made: its contents, and whether it wants an action at commit. -/
structure Change where
  tag : Nat
  atCommit : Bool
deriving DecidableEq, Repr

/-- The changes not undone so far: those since the innermost open savepoint, and, for each open
savepoint from the innermost outwards, those made before it.  Newest first. -/
structure Pending where
  top : List Change
  below : List (List Change)

/-- Undo these changes, in this order. -/
def undoAll (l : List Change) : List Call := l.map fun c => ⟨.abort, c.tag⟩

/-- Do the commit-time actions of these changes, in this order. -/
def finish (g : Stage) (l : List Change) : List Call :=
  (l.filter (·.atCommit)).map fun c => ⟨g, c.tag⟩

/-- Which callbacks one event has to call, and what is pending afterwards. -/
def wantStep (p : Pending) : Op → List Call × Pending
  | .change _ t => ([], ⟨⟨t, false⟩ :: p.top, p.below⟩)
  | .onc _ t => ([], ⟨⟨t, true⟩ :: p.top, p.below⟩)
  | .retain => ([], p)
  | .start _ => ([], ⟨[], p.top :: p.below⟩)
  | .release =>
    match p.below with
    | [] => ([], p)
    | b :: bs => ([], ⟨p.top ++ b, bs⟩)
  | .rollback _ =>
    match p.below with
    | [] => ([], p)
    | b :: bs => (undoAll p.top, ⟨b, bs⟩)
  | .commit =>
    let all := p.top ++ p.below.flatten
    (finish .preCommit all ++ finish .commit all, ⟨[], []⟩)
  | .abort => (undoAll (p.top ++ p.below.flatten), ⟨[], []⟩)

/-- The callbacks to be called by a sequence of events, oldest first. -/
def want (p : Pending) : List Op → List Call
  | [] => []
  | o :: os => (wantStep p o).1 ++ want (wantStep p o).2 os

/-- C24.  The callbacks called are the right ones, in the right order. -/
def C24 (s : St) (ops : List Op) : Prop := s.calls = want ⟨[], []⟩ ops

/-- C56.  No savepoint "goes out of order", and no undo item is missing or taken for one of
another kind. -/
def C56 (s : St) : Prop := s.failed = false

/-- The undo calls made by the rollbacks to savepoints of the transaction in progress, the
latest rollback first.  `done`: those so far.  `before`, `after`: all calls before and after an
event. -/
def rolledStep (done : List (List Call)) (before after : List Call) : Op → List (List Call)
  | .rollback _ => after.drop before.length :: done
  | .commit => []
  | .abort => []
  | _ => done

/-- The same for a run from state `s`. -/
def rolled (done : List (List Call)) (s : St) : List Op → List (List Call)
  | [] => done
  | o :: os => rolled (rolledStep done s.calls (step s o).calls o) (step s o) os

/-- C57.  Undoing again, after a restart, what was rolled back to savepoints in the transaction
in progress calls exactly the callbacks called by these rollbacks. -/
def C57 (n : Nat) (ops : List Op) : Prop :=
  let s := run n ops
  applyBranches s.mem (s.next + 1) (s.next + 1) s.branch =
    some (rolled [] (St.init n) ops).flatten

/-- Is each savepoint recorded at its own level or deeper?  `depth`: open savepoints; `dirty`:
undo was written; `floor`: the depth at which the first savepoint after the first change was
started.  A transaction is regular when no savepoint is started at a depth below `floor`. -/
def regular : (depth : Nat) → (dirty : Bool) → (floor : Option Nat) → List Op → Prop
  | _, _, _, [] => True
  | d, y, f, o :: os =>
    match o with
    | .change _ _ => regular d true f os
    | .onc _ _ => regular d true f os
    | .retain => regular d true f os
    | .start _ =>
      if y then
        match f with
        | none => regular (d + 1) y (some d) os
        | some k => k ≤ d ∧ regular (d + 1) y f os
      else regular (d + 1) y f os
    | .release => regular (d - 1) y f os
    | .rollback _ => regular (d - 1) y f os
    | .commit => regular 0 false none os
    | .abort => regular 0 false none os

end Verif.UndoStack
