/-!
# Index scans with row comparisons and arrays: model

What `Verif/Fastpath` leaves out of an index scan: row comparisons such as `(a, b) > (1, 2)` and
arrays (`a = ANY (…)`).

A value is an integer: its place in the order of its type.  The datum 0, which the code reads where
there is NULL, is the value 0 of a type passed by value and a null pointer for a type passed by
reference.  `none` as a result is the comparison function called on a null pointer, which ends the
server process.  What PostgreSQL does before the code is called (`_bt_preprocess_keys`,
`_bt_preprocess_array_keys`) is taken as it is: it turns operators around on DESC columns, sorts
arrays in the order of the index, without NULL and repetitions, and finds a row comparison whose
first member is NULL unsatisfiable.  Skip arrays of PostgreSQL 18 are in `Skip.lean`.  Exclusion
constraints and arrays of another type than the column are not modelled.
-/

namespace Verif.ArrayScan

/-- `OIndexField`, include/tableam/descr.h:84-103: ASC or DESC, NULLS FIRST or LAST, and whether
values are passed by reference. -/
structure Field where
  asc : Bool
  nullfirst : Bool
  byRef : Bool
deriving DecidableEq, Repr

/-- The key columns of a stored row; `none` is NULL. -/
abbrev Row := List (Option Int)

/-- `OBTreeValueBound`, include/tableam/key_range.h:32-47, with its flags
`O_VALUE_BOUND_INCLUSIVE`, `O_VALUE_BOUND_NULL` and `O_VALUE_BOUND_LOWER` (otherwise
`O_VALUE_BOUND_UPPER`); bounds of row comparisons are never unbounded.  `arg` is the datum,
`none` the datum 0 that stands for NULL. -/
structure Bound where
  lower : Bool
  incl : Bool
  isnull : Bool
  arg : Option Int
deriving DecidableEq, Repr

/-- `cmp_inclusive` for a bound that is not inclusive, src/tableam/tree.c:571-580. -/
def Bound.edge (b : Bound) : Int := if b.lower then 1 else -1

/-- Three-way comparison, as the comparison functions of PostgreSQL do it; not from the source. -/
def icmp (a b : Int) : Int := if a < b then -1 else if b < a then 1 else 0

/-- `o_idx_cmp_range_key_to_value`, src/tableam/tree.c:592-634.  `none`: the comparison function
gets a null pointer (608). -/
def cmpBound (f : Field) (b : Bound) (x : Option Int) : Option Int :=
  if b.isnull then
    match x with
    | none => some (if b.incl then 0 else b.edge)
    | some _ => some (if f.nullfirst then -1 else 1)
  else
    match x with
    | none => some (if f.nullfirst then 1 else -1)
    | some v =>
      if b.arg = none ∧ f.byRef then none
      else
        let c := icmp (b.arg.getD 0) v
        let c := if f.asc then c else -c
        some (if c = 0 ∧ b.incl = false then b.edge else c)

/-! ## Row comparisons -/

/-- The operator of a row comparison. -/
inductive RowOp where
  | lt | le | gt | ge
deriving DecidableEq, Repr

/-- A member of a row comparison: its column (from 0) and its argument, `none` for NULL. -/
structure Member where
  col : Nat
  arg : Option Int
deriving DecidableEq, Repr

/-- A row comparison as written in the query. -/
structure RowCond where
  op : RowOp
  members : List Member
deriving DecidableEq, Repr

/-- The field of a column. -/
def fieldOf (fs : List Field) (c : Nat) : Field := fs.getD c ⟨true, false, false⟩

/-- The value of a column of a row. -/
def valueOf (r : Row) (c : Nat) : Option Int := r.getD c none

/-- The operator in the order of the index: `_bt_fix_scankey_strategy` of PostgreSQL turns it
around if the column of the first member is DESC.  (It does so for each member by its own column;
the code looks at the operator of the header only, src/tableam/key_range.c:134.) -/
def indexOp (asc : Bool) : RowOp → RowOp
  | .lt => if asc then .lt else .gt
  | .le => if asc then .le else .ge
  | .gt => if asc then .gt else .lt
  | .ge => if asc then .ge else .le

/-- `o_fill_row_key_bound`, src/tableam/key_range.c:38-80, called for each member (360-398): all
but the last are inclusive. -/
def rowBounds (lower incl isnull : Bool) : List Member → List (Nat × Bound)
  | [] => []
  | [m] => [(m.col, ⟨lower, incl, isnull, m.arg⟩)]
  | m :: m' :: ms => (m.col, ⟨lower, true, isnull, m.arg⟩) :: rowBounds lower incl isnull (m' :: ms)

/-- The row bounds of a condition that are lower bounds (`setLow`), src/tableam/key_range.c:138-209
and 360-398; `nullfirst` is that of the column of the first member. -/
def lowOf (nullfirst : Bool) (op : RowOp) (ms : List Member) : Option (List (Nat × Bound)) :=
  match op with
  | .gt => some (rowBounds true false false ms)
  | .ge => some (rowBounds true true false ms)
  | _ => if nullfirst then some (rowBounds true false true ms) else none

/-- The row bounds of a condition that are upper bounds (`setHigh`),
src/tableam/key_range.c:138-209 and 360-398. -/
def highOf (nullfirst : Bool) (op : RowOp) (ms : List Member) : Option (List (Nat × Bound)) :=
  match op with
  | .lt => some (rowBounds false false false ms)
  | .le => some (rowBounds false true false ms)
  | _ => if nullfirst then none else some (rowBounds false false true ms)

/-- `row_key_tuple_is_valid`, src/tableam/index_scan.c:78-121. -/
def rowKeyValid (fs : List Field) (low : Bool) (r : Row) : List (Nat × Bound) → Option Bool
  | [] => some true
  | (c, b) :: bs =>
    let x := valueOf r c
    match cmpBound (fieldOf fs c) b x with
    | none => none
    | some cmp =>
      if (!b.isnull && x.isNone) || (if low then decide (0 < cmp) else decide (cmp < 0)) then
        some false
      else if cmp ≠ 0 ∧ bs ≠ [] then some true
      else rowKeyValid fs low r bs

/-- One check after another, the rest left out after the first that fails
(`valid && …`, src/tableam/index_scan.c:165 and 172). -/
def both (a : Option Bool) (b : Unit → Option Bool) : Option Bool :=
  match a with
  | some true => b ()
  | o => o

/-- The check of a row bound if there is one, src/tableam/index_scan.c:165-178. -/
def optValid (fs : List Field) (low : Bool) (r : Row) : Option (List (Nat × Bound)) → Option Bool
  | none => some true
  | some bs => rowKeyValid fs low r bs

/-- What is checked of one row comparison, src/tableam/index_scan.c:165-178.  (The code checks the
lower bounds of all conditions first, then the upper ones.) -/
def condValid (fs : List Field) (r : Row) (c : RowCond) : Option Bool :=
  let f := fieldOf fs ((c.members.head?.map (·.col)).getD 0)
  let op := indexOp f.asc c.op
  both (optValid fs true r (lowOf f.nullfirst op c.members))
    fun _ => optValid fs false r (highOf f.nullfirst op c.members)

/-- All row comparisons, src/tableam/index_scan.c:165-178. -/
def condsValid (fs : List Field) (r : Row) : List RowCond → Option Bool
  | [] => some true
  | c :: cs => both (condValid fs r c) fun _ => condsValid fs r cs

/-- Whether the columns of a row have the values asked for (`none`: not asked for); by the range of
the scan and src/tableam/index_scan.c:137-163, see `Verif/Fastpath`. -/
def eqsHold : List (Option Int) → Row → Bool
  | some v :: es, x :: r => decide (x = some v) && eqsHold es r
  | none :: es, _ :: r => eqsHold es r
  | _, _ => true

/-- Whether a scan with `=` on the columns of `eqs` and row comparisons returns a row of the index.
With `=` on all columns the range is exact (`o_key_data_to_key_range`,
src/tableam/key_range.c:419-435) and the row is looked up and returned at once
(src/tableam/index_scan.c:771-803); otherwise `is_tuple_valid` is asked (805-823). -/
def emits (fs : List Field) (eqs : List (Option Int)) (cs : List RowCond) (r : Row) :
    Option Bool :=
  if eqsHold eqs r then
    if eqs.all (·.isSome) then some true else condsValid fs r cs
  else some false

/-! ## Arrays whose elements are looked up in `is_tuple_valid` -/

/-- The binary search, src/tableam/index_scan.c:202-249, between `lo` and `hi`, exclusive (`hi + 1`
of the code). -/
def bsearch (asc : Bool) (v : Int) (es : List Int) (lo hi : Nat) : Bool :=
  if h : lo < hi then
    let mid := lo + (hi - 1 - lo) / 2
    let c := icmp v (es.getD mid 0)
    let c := if asc then c else -c
    if c = 0 then true
    else if c < 0 then bsearch asc v es lo mid
    else bsearch asc v es (mid + 1) hi
  else false
termination_by hi - lo
decreasing_by all_goals simp_wf; omega

/-- An array: its column and its elements. -/
structure Arr where
  col : Nat
  elems : List Int
deriving DecidableEq, Repr

/-- The bounds of the column of such an array, first and last element
(src/tableam/key_range.c:340-351), checked by the range of the scan or by
src/tableam/index_scan.c:137-163. -/
def arrBounds (fs : List Field) (r : Row) (a : Arr) : Bool :=
  match valueOf r a.col with
  | none => false
  | some v =>
    let f := fieldOf fs a.col
    let le (x y : Int) : Bool := if f.asc then decide (x ≤ y) else decide (y ≤ x)
    le (a.elems.headD 0) v && le v (a.elems.getLastD 0)

/-- The look-up in one array, src/tableam/index_scan.c:200-252: NULL is not tested for; its datum
is 0. -/
def arrLookup (fs : List Field) (r : Row) (a : Arr) : Option Bool :=
  let f := fieldOf fs a.col
  match valueOf r a.col with
  | none => if f.byRef then none else some (bsearch f.asc 0 a.elems 0 a.elems.length)
  | some v => some (bsearch f.asc v a.elems 0 a.elems.length)

/-- The loop over the arrays, src/tableam/index_scan.c:179-253; it goes on when the row has been
refused. -/
def arrsValid (fs : List Field) (r : Row) : Bool → List Arr → Option Bool
  | valid, [] => some valid
  | valid, a :: as =>
    match arrLookup fs r a with
    | none => none
    | some found => arrsValid fs r (valid && found) as

/-- `is_tuple_valid`, src/tableam/index_scan.c:123-256, for a scan whose conditions are arrays that
are not among the exact leading columns. -/
def tupleValid (fs : List Field) (as : List Arr) (r : Row) : Option Bool :=
  arrsValid fs r (as.all fun a => arrBounds fs r a) as

/-! ## Arrays on leading columns: one range for each combination -/

/-- One array among the leading columns with `=` (`scan_key < numPrefixExactKeys`): one step of
`o_bt_advance_array_keys_increment`, src/tableam/index_scan.c:481-497.  The new `cur_elem`, and
whether it has not rolled over. -/
def stepElem (fwd : Bool) (num cur : Nat) : Nat × Bool :=
  if fwd then (if num ≤ cur + 1 then (0, false) else (cur + 1, true))
  else (if cur = 0 then (num - 1, false) else (cur - 1, true))

/-- `o_bt_advance_array_keys_increment`, src/tableam/index_scan.c:351-514: the last array first; the
result is true if one has not rolled over.  The state put back at the end (510-511), of which only
a scan that turns around makes use, is not modelled. -/
def advance (fwd : Bool) : List Nat → List Nat → List Nat × Bool
  | num :: nums, cur :: curs =>
    match advance fwd nums curs with
    | (curs', true) => (cur :: curs', true)
    | (curs', false) =>
      let s := stepElem fwd num cur
      (s.1 :: curs', s.2)
  | _, _ => ([], false)

/-- `_bt_start_array_keys` of PostgreSQL, called by `switch_to_next_range`
(src/tableam/index_scan.c:551-562, 577-590): the first elements, or the last ones for a backward
scan. -/
def start (fwd : Bool) (nums : List Nat) : List Nat :=
  nums.map fun n => if fwd then 0 else n - 1

/-- The positions for which a scan opens a range, from a position on, up to the end of the scan:
`switch_to_next_range` called by `o_iterate_index` until it returns false
(src/tableam/index_scan.c:757-764, 943-951). -/
inductive Visits (fwd : Bool) (nums : List Nat) : List Nat → List (List Nat) → Prop where
  | stop {s s' : List Nat} : advance fwd nums s = (s', false) → Visits fwd nums s [s]
  | step {s s' : List Nat} {l : List (List Nat)} : advance fwd nums s = (s', true) →
      Visits fwd nums s' l → Visits fwd nums s (s :: l)

/-- The values of the leading columns in a range: `o_key_data_update_array_key_range`,
src/tableam/key_range.c:82-109. -/
def valuesAt : List (List Int) → List Nat → Row
  | es :: ess, c :: cs => some (es.getD c 0) :: valuesAt ess cs
  | _, _ => []

/-- What a scan returns of the rows of the index (in its order): for each range the rows with these
values in the leading columns, forward or backward (src/tableam/index_scan.c:748-953; that a range
gives these rows is shown in `Verif/Fastpath`). -/
def collect (fwd : Bool) (ess : List (List Int)) (rows : List Row) (l : List (List Nat)) :
    List Row :=
  l.flatMap fun s =>
    (if fwd then rows else rows.reverse).filter
      fun r => decide (r.take ess.length = valuesAt ess s)

/-- The result of a scan with an array on each of the first columns (a single value is an array of
one element): the rows of all ranges, src/tableam/index_scan.c:748-953. -/
def ScanGives (fwd : Bool) (ess : List (List Int)) (rows out : List Row) : Prop :=
  ∃ l, Visits fwd (ess.map (·.length)) (start fwd (ess.map (·.length))) l ∧
    out = collect fwd ess rows l

end Verif.ArrayScan
