/-
What a range scan must return.
-/
import Verif.Visible.Spec
import Verif.Visible.Scan

namespace Verif.Visible

/-- The keys of the range: those from `a` on to the end of the range, if it has one. -/
def inRange (a : Nat) (e : Option Bound) (k : Nat) : Prop :=
  a ≤ k ∧ ∀ b, e = some b → k < b.key ∨ (b.incl = true ∧ k = b.key)

end Verif.Visible
