import Verif.Workers.Model
/-!
# What queries on a standby may see
-/

namespace Verif.Workers

/-- A transaction does nothing after its end. -/
def Proper (log : List Rec) : Prop :=
  ∀ (i j x : Nat) (ok : Bool) (r : Rec), i < j → log[i]? = some (.fin x ok) → log[j]? = some r → r.xid ≠ x

/-- All changes of `x` in the log have been applied, each as a change of `x`, by the worker its key
belongs to. -/
def Whole (c : Cfg) (log : List Rec) (s : St) (x : Nat) : Prop :=
  ∀ (i h : Nat), log[i]? = some (.mod x h) → (some x, i) ∈ s.applied (h % c.n)

/-- No worker has changes of `x` it has not finished (made final, or taken back). -/
def NothingLeft (s : St) (x : Nat) : Prop :=
  ∀ w, (∃ i, (some x, i) ∈ s.applied w) → x ∈ s.ended w

/-- The transactions of a log in the order of their ends. -/
def ends : List Rec → List (Nat × Bool)
  | [] => []
  | .fin x ok :: log => (x, ok) :: ends log
  | _ :: log => ends log

end Verif.Workers
