/-
What a reader must see, independent of pages, chains and undo records.
-/
import Verif.Visible.Model

namespace Verif.Visible

/-- One change of a row, as the user made it: transaction, key, number of the command
in the transaction, position in the order of all changes, and the new value
(`none`: the row was deleted). -/
structure Change where
  oxid : Nat
  key : Nat
  cid : Nat
  pos : Nat
  value : Option Nat
  deriving DecidableEq, Repr

/-- The changes made and not undone, newest first, and the commit numbers of
transactions. -/
structure Book where
  changes : List Change
  commit : Nat → Option Nat

/-- Nothing has happened. -/
def Book.init : Book := { changes := [], commit := fun _ => none }

/-- A change is added; ROLLBACK and ROLLBACK TO SAVEPOINT remove the changes of a
transaction from some position on; a commit gives a transaction its number. -/
def Book.step (b : Book) : Ev → Book
  | .wrote x k cid pos del v =>
    { b with
      changes := { oxid := x, key := k, cid := cid, pos := pos,
                   value := if del then none else some v } :: b.changes }
  | .undid x m =>
    { b with changes := b.changes.filter (fun ch => decide (ch.oxid ≠ x ∨ ch.pos < m)) }
  | .committed x q =>
    { b with commit := fun y => if y = x then some q else b.commit y }

/-- The book after a run. -/
def Book.after (b : Book) : List Ev → Book
  | [] => b
  | e :: t => (b.step e).after t

/-- Does a snapshot see a change: it is one of the reader's own, made by an earlier
command, or its transaction committed before the snapshot was taken. -/
def Book.sees (b : Book) (sn : Snap) (ch : Change) : Bool :=
  (decide (ch.oxid = sn.oxid) && decide (ch.cid < sn.cid)) ||
  (match b.commit ch.oxid with
   | some q => decide (q < sn.csn)
   | none => false)

/-- The value of a row in a snapshot: the newest change of that row which the snapshot
sees; no row if there is none or if it is a deletion. -/
def Book.value (b : Book) (sn : Snap) (k : Nat) : Option Nat :=
  ((b.changes.find? (fun ch => decide (ch.key = k) && b.sees sn ch)).map
    (fun ch => ch.value)).join

end Verif.Visible
