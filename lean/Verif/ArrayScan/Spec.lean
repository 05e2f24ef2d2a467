import Verif.ArrayScan.Model

/-!
# Index scans with row comparisons and arrays: what they should return

Stated without the bounds and ranges of the model.
-/

namespace Verif.ArrayScan

/-- A row comparison of SQL on pairs of value and argument: decided by the first pair that
differs; not true if NULL is met before (`ExecEvalRowCompare…` of PostgreSQL; what the code is to
implement, src/tableam/index_scan.c:78-121). -/
def sqlRow (op : RowOp) : List (Option Int × Option Int) → Bool
  | [] => op = .le ∨ op = .ge
  | (some v, some a) :: ps =>
    if v = a then sqlRow op ps
    else if op = .lt ∨ op = .le then decide (v < a) else decide (a < v)
  | _ => false

/-- Whether a row comparison is true of a row (src/tableam/index_scan.c:78-121). -/
def RowCond.Holds (c : RowCond) (r : Row) : Prop :=
  sqlRow c.op (c.members.map fun m => (valueOf r m.col, m.arg)) = true

/-- Arguments without NULL and columns that are all ASC or all DESC: what
src/tableam/key_range.c:360-398 handles. -/
def RowCond.Plain (fs : List Field) (c : RowCond) : Prop :=
  c.members ≠ [] ∧ (∀ m ∈ c.members, m.arg ≠ none) ∧
    ∃ asc, ∀ m ∈ c.members, (fieldOf fs m.col).asc = asc

/-- Whether an element of the array is in the column of the row
(src/tableam/index_scan.c:200-252). -/
def Arr.Holds (a : Arr) (r : Row) : Prop := ∃ v ∈ a.elems, valueOf r a.col = some v

/-- Elements in the order of the index, without repetitions, at least one
(`_bt_preprocess_array_keys` of PostgreSQL; src/tableam/index_scan.c:217-224). -/
def SortedIn (asc : Bool) (es : List Int) : Prop :=
  es ≠ [] ∧ es.Pairwise fun x y => if asc then x < y else y < x

/-- The order of one column: whether `x` comes before `y` (src/tableam/tree.c:695-706). -/
def ColLt (f : Field) : Option Int → Option Int → Prop
  | some a, some b => if f.asc then a < b else b < a
  | none, some _ => f.nullfirst = true
  | some _, none => f.nullfirst = false
  | none, none => False

/-- The order of the index (`o_idx_cmp_tuples`, src/tableam/tree.c:683-712). -/
def RowLt : List Field → Row → Row → Prop
  | f :: fs, x :: r, y :: s => ColLt f x y ∨ (x = y ∧ RowLt fs r s)
  | _, _, _ => False

/-- The arrays of the leading columns are sorted, each in the order of its column
(`_bt_preprocess_array_keys` of PostgreSQL; src/tableam/index_scan.c:217-224). -/
def ArraysOk : List Field → List (List Int) → Prop
  | f :: fs, es :: ess => SortedIn f.asc es ∧ ArraysOk fs ess
  | _, [] => True
  | [], _ :: _ => False

/-- The condition of the query: each of the first columns has one of the elements of its array
(`= ANY`; what src/tableam/index_scan.c:351-514 is to implement). -/
def matchesAll : List (List Int) → Row → Bool
  | [], _ => true
  | es :: ess, some v :: r => decide (v ∈ es) && matchesAll ess r
  | _ :: _, _ => false

end Verif.ArrayScan
