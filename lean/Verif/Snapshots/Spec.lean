import Verif.Snapshots.Model

/-!
# What is claimed about snapshots (C21, C22, C49, C50)
-/

namespace Verif.Snapshots

/-- C21: whether a change is visible to a snapshot never changes. -/
def C21 (tr : List Ev) : Prop :=
  ∀ sn x k r r', .look sn x k r ∈ tr → .look sn x k r' ∈ tr → r = r'

/-- C22.
* `all`: if a snapshot sees one change of a transaction, the transaction has committed with
  that change, and the snapshot sees all the changes it committed.
* `done`: a commit that completed before the snapshot was begun to be taken is seen.
* `later`: what a snapshot sees, a snapshot taken later sees. -/
structure C22 (tr : List Ev) : Prop where
  all : ∀ sn x k, .look sn x k true ∈ tr →
    ∃ t ks, .commit t x ks ∈ tr ∧ k ∈ ks ∧ ∀ k' ∈ ks, ∀ r, .look sn x k' r ∈ tr → r = true
  done : ∀ t x ks sn k r, .commit t x ks ∈ tr → k ∈ ks → t < sn.began → .look sn x k r ∈ tr →
    r = true
  later : ∀ sn sn' x k r, .look sn x k true ∈ tr → sn.ended ≤ sn'.began → .look sn' x k r ∈ tr →
    r = true

/-- C49: no snapshot sees a change of a transaction that aborts, before or after. -/
def C49 (tr : List Ev) : Prop :=
  ∀ sn x k, .look sn x k true ∈ tr → .abort x ∉ tr

/-- The snapshots a session may use. -/
def inUse (s : St) (p : Nat) (sn : Snap) : Prop := sn ∈ s.active p ∨ sn ∈ s.reg p

/-- C50: the `xmin` a session publishes is not above that of a snapshot in use. -/
def C50 (s : St) : Prop :=
  ∀ p sn, inUse s p sn → ∃ m, s.pxmin p = some m ∧ m ≤ sn.xmin

/-- Ties do not matter for these registered snapshots: each has an undo log in which all those
with a larger `xmin` have a larger location. -/
def noTies (reg : List Snap) : Bool :=
  reg.all fun a => [0, 1, 2].any fun l =>
    reg.all fun b => decide (a.xmin < b.xmin → a.loc.of l < b.loc.of l)

/-- No tie when `xmin` is reset. -/
def untied (s : St) : Act → Bool
  | .reset p _ _ _ => noTies (s.reg p)
  | _ => true

/-- Not the abort of an autonomous transaction. -/
def regular : Act → Bool
  | .abortAuto _ => false
  | _ => true

/-- A run without ties. -/
def untiedRun (procs : Nat) (s : St) : List Act → Bool
  | [] => true
  | a :: as => untied s a && untiedRun procs (step procs s a) as

end Verif.Snapshots
