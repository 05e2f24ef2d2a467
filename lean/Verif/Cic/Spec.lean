/-! # What is asked of CREATE INDEX CONCURRENTLY -/

namespace Verif.Cic.Spec

/-- The entry of an index over the columns `atts` for a row. -/
def entryOf (atts : List Nat) (row : List Nat) : List Nat := atts.map (fun a => row.getD a 0)

/-- No row is missing in the index. -/
def Complete (atts : List Nat) (rows : List (List Nat)) (index : List Nat → Bool) : Prop :=
  ∀ row ∈ rows, index (entryOf atts row) = true

/-- The index has the entries of the rows and no others. -/
def Exact (atts : List Nat) (rows : List (List Nat)) (index : List Nat → Bool) : Prop :=
  ∀ k, index k = true ↔ ∃ row ∈ rows, entryOf atts row = k

/-- Two tuples with equal unique columns: NULLs are equal to nothing, or to each other. -/
def Same (nullsNotDistinct : Bool) (a b : List (Option Nat)) : Prop :=
  a = b ∧ (nullsNotDistinct = true ∨ none ∉ a)

/-- There are no duplicates among the tuples. -/
def NoDuplicates (nullsNotDistinct : Bool) (l : List (List (Option Nat))) : Prop :=
  l.Pairwise (fun a b => ¬ Same nullsNotDistinct a b)

/-- NULLs come after all other values. -/
def valLe : Option Nat → Option Nat → Bool
  | some a, some b => a ≤ b
  | _, none => true
  | none, some _ => false

/-- The order of keys: the first column decides, then the second. -/
def keyLe : List (Option Nat) → List (Option Nat) → Bool
  | a :: as, b :: bs => if a = b then keyLe as bs else valLe a b
  | [], _ => true
  | _ :: _, [] => false

end Verif.Cic.Spec
