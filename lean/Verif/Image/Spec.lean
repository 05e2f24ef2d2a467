import Verif.Image.Model
/-!
# What recovery over the image of a checkpoint must do
-/

namespace Verif.Image

/-- The value a reader sees on the primary server, or would see if it crashed now: the newest version
of a transaction which has committed. -/
def committed (s : PSt) : Option Nat := top (s.chain.dropWhile (fun v => !s.done v.xid))

/-- `x` changes the row. -/
def touches (x : Nat) : Ev → Bool
  | .ins y _ => y == x
  | .upd y _ => y == x
  | .del y => y == x
  | _ => false

/-- `x` begins or aborts a subtransaction. -/
def subtran (x : Nat) : Ev → Bool
  | .sp y => y == x
  | .rb y => y == x
  | _ => false

/-- A transaction which uses savepoints in the part `late` of the history has not changed the row in
the part `early`. -/
def SavepointsApart (early late : List Ev) : Prop :=
  ∀ x, (∃ e ∈ late, subtran x e = true) → ∀ e ∈ early, touches x e = false

/-- The transaction of an event. -/
def Ev.xid : Ev → Nat
  | .see x => x
  | .ins x _ => x
  | .upd x _ => x
  | .del x => x
  | .sp x => x
  | .rb x => x
  | .fin x _ => x

/-- In the part of the history between the start of the replay and the writing of the page, the first
change of the row is made by `x`, the transaction `z` which wrote the version on the page is another
one, and it has done something before that change. -/
def EarlyBird (e : List Ev) (z : Nat) : Prop :=
  ∃ a b x f, e = a ++ f :: b ∧ touches x f = true ∧ (∀ g ∈ a, ∀ y, touches y g = false) ∧
    z ≠ x ∧ ∃ g ∈ a, g.xid = z

end Verif.Image
