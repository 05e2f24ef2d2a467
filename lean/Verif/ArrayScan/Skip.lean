import Verif.ArrayScan.Spec

/-!
# Index scans that skip leading columns (PostgreSQL 18): model

A query with conditions on later columns of an index and none on the first ones: PostgreSQL 18 adds
a *skip array* for each of the first columns, which the code drives by looking for the next value
in the index.  Modelled for skip arrays on the first columns without conditions of their own
(`null_elem`, no `low_compare`, no `high_compare`).
-/

namespace Verif.ArrayScan

/-- The state of a skip array, the flags of its scan key: `SK_BT_MINVAL`, `SK_BT_MAXVAL` and
`SK_ISNULL` (the *sentinels*), a value, a value with `SK_BT_NEXT` or with `SK_BT_PRIOR`
(src/tableam/key_range.c:224-229). -/
inductive Skip where
  | minval | maxval | isnull
  | at (v : Int)
  | next (v : Int)
  | prior (v : Int)
deriving DecidableEq, Repr

/-- `o_bt_array_set_low_or_high`, src/tableam/index_scan.c:273-311, for a skip array; also
`_bt_start_array_keys` of PostgreSQL. -/
def Skip.start (fwd : Bool) (f : Field) : Skip :=
  if fwd = f.nullfirst then .isnull else if fwd then .minval else .maxval

/-- Sentinel or transition, src/tableam/index_scan.c:661-668 and 711-714. -/
def Skip.open : Skip → Bool
  | .at _ => false
  | _ => true

/-- Whether `y` is behind the value `v` in the order of the index, NULL included: an exclusive lower
bound in `o_idx_cmp_range_key_to_value`, src/tableam/tree.c:592-634. -/
def after (f : Field) (v : Int) : Option Int → Bool
  | none => !f.nullfirst
  | some w => if f.asc then decide (v < w) else decide (w < v)

/-- Whether `y` is before the value `v` in the order of the index, NULL included: an exclusive upper
bound in `o_idx_cmp_range_key_to_value`, src/tableam/tree.c:592-634. -/
def before (f : Field) (v : Int) : Option Int → Bool
  | none => f.nullfirst
  | some w => if f.asc then decide (w < v) else decide (v < w)

/-- Whether the first column is in the range opened for a state of its skip array
(src/tableam/key_range.c:222-328), by the bounds of the iterator. -/
def inFirst (f : Field) : Skip → Option Int → Bool
  | .at v, x => decide (x = some v)
  | .next v, x => after f v x
  | .prior v, x => before f v x
  | _, _ => true

/-- Whether `is_tuple_valid` accepts a further column for a state of its skip array: NULL is refused
by a bound with a value (src/tableam/index_scan.c:136-163). -/
def inRest (f : Field) : Skip → Option Int → Bool
  | .at v, x => decide (x = some v)
  | .next v, x => x.isSome && after f v x
  | .prior v, x => x.isSome && before f v x
  | _, _ => true

/-- The further columns, src/tableam/index_scan.c:136-163: with a skip array on the first column
`numPrefixExactKeys` is 0 (`o_adjust_num_prefix_exact_keys`, src/indexam/handler.c:1724-1740), so all
but the first are looked at. -/
def inRests : List Field → List Skip → Row → Bool
  | f :: fs, k :: ks, x :: r => inRest f k x && inRests fs ks r
  | _, _, _ => true

/-- Whether a row is returned by the range opened for a state (src/tableam/key_range.c:121-417,
src/tableam/index_scan.c:123-163); `P` is what is asked of the columns behind the skip arrays.  A
row whose columns are all within their bounds is between the bounds of the iterator. -/
def inRange (fs : List Field) (ks : List Skip) (P : Row → Bool) (r : Row) : Bool :=
  (match fs, ks, r with
   | f :: fs, k :: ks, x :: r => inFirst f k x && inRests fs ks r
   | _, _, _ => true) && P r

/-- The rows of a range, in the order of the scan (`rows` are in this order). -/
def rangeRows (fs : List Field) (ks : List Skip) (P : Row → Bool) (rows : List Row) : List Row :=
  rows.filter (inRange fs ks P)

/-- `o_skip_arrays_observe_tuple`, src/tableam/index_scan.c:688-744: sentinels and transitions are
replaced by the values of the row, unless these are NULL. -/
def observe : List Skip → Row → List Skip
  | k :: ks, some v :: r => (if k.open then .at v else k) :: observe ks r
  | k :: ks, none :: r => k :: observe ks r
  | ks, _ => ks

/-- What a range returns, src/tableam/index_scan.c:805-941: if a skip array is a sentinel or in
transition (661-668) the first row found is a probe; if that changes a skip array, the range is
opened again without another probe.  Rows returned and the state after. -/
def scanRange (fs : List Field) (ks : List Skip) (P : Row → Bool) (rows : List Row) :
    List Row × List Skip :=
  let l := rangeRows fs ks P rows
  if ks.any Skip.open then
    match l with
    | [] => (l, ks)
    | t :: _ =>
      let ks' := observe ks t
      if ks' = ks then (l, ks) else (rangeRows fs ks' P rows, ks')
  else (l, ks)

/-- `o_bt_advance_array_keys_increment`, src/tableam/index_scan.c:400-475, for skip arrays: the last
one first. -/
def skipAdvance (fwd : Bool) : List Field → List Skip → List Skip × Bool
  | f :: fs, k :: ks =>
    match skipAdvance fwd fs ks with
    | (ks', true) => (k :: ks', true)
    | (ks', false) =>
      match k with
      | .at v => ((if fwd then .next v else .prior v) :: ks', true)
      | _ => (Skip.start fwd f :: ks', false)
  | _, _ => ([], false)

/-- A scan from a state on to its end, and the rows it returns
(`o_iterate_index`, src/tableam/index_scan.c:747-953). -/
inductive SkipRuns (fwd : Bool) (fs : List Field) (P : Row → Bool) (rows : List Row) :
    List Skip → List Row → Prop where
  | stop {ks ks' : List Skip} : skipAdvance fwd fs (scanRange fs ks P rows).2 = (ks', false) →
      SkipRuns fwd fs P rows ks (scanRange fs ks P rows).1
  | step {ks ks' : List Skip} {out : List Row} :
      skipAdvance fwd fs (scanRange fs ks P rows).2 = (ks', true) →
      SkipRuns fwd fs P rows ks' out →
      SkipRuns fwd fs P rows ks ((scanRange fs ks P rows).1 ++ out)

/-- The result of a scan with skip arrays on the columns `fs`; `rows` are the rows of the index in
its order (src/tableam/index_scan.c:536-953). -/
def SkipGives (fwd : Bool) (fs : List Field) (P : Row → Bool) (rows out : List Row) : Prop :=
  SkipRuns fwd fs P (if fwd then rows else rows.reverse) (fs.map (Skip.start fwd)) out

/-- A scan computed for at most `n` ranges; for the concrete cases, not from the source. -/
def skipRun (fwd : Bool) (fs : List Field) (P : Row → Bool) (rows : List Row) :
    Nat → List Skip → Option (List Row)
  | 0, _ => none
  | n + 1, ks =>
    let s := scanRange fs ks P rows
    match skipAdvance fwd fs s.2 with
    | (_, false) => some s.1
    | (ks', true) => (skipRun fwd fs P rows n ks').map (s.1 ++ ·)

end Verif.ArrayScan
