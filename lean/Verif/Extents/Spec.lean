import Verif.Extents.Model

/-!
# What the extent allocator is supposed to guarantee

Stated about extents as sets of blocks, without the allocator's own helpers.
-/

namespace Verif.Extents

/-- Block `b` belongs to the extent (offset, length). -/
def Has (x : Ext) (b : Nat) : Prop := x.1 ≤ b ∧ b < x.1 + x.2

/-- No block belongs to two of the extents. -/
def NoOverlap (l : List Ext) : Prop := l.Pairwise (fun x y => ∀ b, ¬ (Has x b ∧ Has y b))

/-- Total length. -/
def total (l : List Ext) : Nat := (l.map (·.2)).sum

/-- No operation is in progress. -/
def AtRest (s : State) : Prop := ∀ p ∈ s.procs, p = .idle

/-- No process hit `elog(FATAL)` or a failed assertion. -/
def NoFatal (s : State) : Prop := ∀ p ∈ s.procs, p ≠ .fatal

/-- No extent ends where another begins. -/
def Coalesced (l : List Ext) : Prop := ∀ x ∈ l, ∀ y ∈ l, x.1 + x.2 ≠ y.1

/-- Operations performed one after another, by any process. -/
inductive Op where
  | get (i need : Nat)
  | free (i k : Nat)
  deriving Repr, DecidableEq

/-- The operation started by its process which then runs alone for 3 resp. 8
steps. -/
def Op.sched : Op → Sched
  | .get i need => (i, .get need) :: List.replicate 3 (i, .go)
  | .free i k => (i, .free k) :: List.replicate 8 (i, .go)

def runOps (s : State) (ops : List Op) : State := ops.foldl (fun s o => s.run o.sched) s

end Verif.Extents
