import Verif.ArrayScan.RowProofs
import Verif.ArrayScan.RangeProofs

/-!
# Index scans with row comparisons and arrays: properties C138 to C140
-/

namespace Verif.ArrayScan

/-! ## C138 — row comparisons -/

theorem eqsHold_iff : ∀ (eqs : List (Option Int)) (r : Row), eqs.length = r.length →
    (eqsHold eqs r = true ↔ ∀ j v, eqs[j]? = some (some v) → valueOf r j = some v)
  | [], r, _ => by cases r <;> simp [eqsHold]
  | e :: es, [], h => by simp at h
  | none :: es, x :: r, h => by
    have ih := eqsHold_iff es r (by simpa using h)
    simp only [eqsHold, ih]
    constructor
    · intro hh j v hj
      cases j with
      | zero => simp at hj
      | succ j => exact hh j v (by simpa using hj)
    · intro hh j v hj
      exact hh (j + 1) v (by simpa using hj)
  | some w :: es, x :: r, h => by
    have ih := eqsHold_iff es r (by simpa using h)
    simp only [eqsHold, Bool.and_eq_true, decide_eq_true_eq, ih]
    constructor
    · rintro ⟨h0, hh⟩ j v hj
      cases j with
      | zero =>
        simp only [List.getElem?_cons_zero, Option.some.injEq] at hj
        subst hj
        simpa [valueOf] using h0
      | succ j => exact hh j v (by simpa using hj)
    · intro hh
      refine ⟨?_, fun j v hj => hh (j + 1) v (by simpa using hj)⟩
      have := hh 0 w (by simp)
      simpa [valueOf] using this

/-- **C138 (in part).**  A scan with `=` on some of the columns of an index and any number of row
comparisons returns a row if and only if it satisfies them all — NULL in the row, columns with
NULLS FIRST and LAST, and indexes that are DESC included.  Missing: `=` on all columns, arguments
that are NULL, and comparisons over columns of which some are ASC and some DESC; see below. -/
theorem C138_partial (fs : List Field) (eqs : List (Option Int)) (cs : List RowCond) (r : Row)
    (hlen : eqs.length = r.length) (hfree : none ∈ eqs) (hp : ∀ c ∈ cs, c.Plain fs) :
    ∃ b, emits fs eqs cs r = some b ∧
      (b = true ↔ (∀ j v, eqs[j]? = some (some v) → valueOf r j = some v) ∧
        ∀ c ∈ cs, c.Holds r) := by
  obtain ⟨b, e, hb⟩ := condsValid_plain fs r cs hp
  rw [← eqsHold_iff eqs r hlen]
  have hall : (eqs.all (·.isSome)) = false := by
    apply Bool.eq_false_iff.mpr
    intro h
    have := List.all_eq_true.mp h none hfree
    cases this
  cases hq : eqsHold eqs r with
  | false => exact ⟨false, by simp [emits, hq], by simp⟩
  | true => exact ⟨b, by simp [emits, hq, hall, e], by simpa using hb⟩

/-- The index `(a, b DESC, c DESC)` of the case below. -/
private def caseFs : List Field :=
  [⟨true, false, false⟩, ⟨false, true, false⟩, ⟨false, true, true⟩]

/-- `a = 1 AND (b, c) >= (2, 3) AND (b, c) < (9, 9)` on three rows: one that satisfies it, one that
does not by its last column, and one with NULL. -/
theorem C138_partial_case :
    let cs : List RowCond := [⟨.ge, [⟨1, some 2⟩, ⟨2, some 3⟩]⟩, ⟨.lt, [⟨1, some 9⟩, ⟨2, some 9⟩]⟩]
    let eqs : List (Option Int) := [some 1, none, none]
    (none ∈ eqs ∧ ∀ c ∈ cs, c.Plain caseFs) ∧
      emits caseFs eqs cs [some 1, some 2, some 3] = some true ∧
      emits caseFs eqs cs [some 1, some 2, some 2] = some false ∧
      emits caseFs eqs cs [some 1, some 5, none] = some true ∧
      emits caseFs eqs cs [some 1, some 2, none] = some false ∧
      emits caseFs eqs cs [some 1, none, some 4] = some false := by
  refine ⟨⟨by simp, ?_⟩, by decide +kernel, by decide +kernel, by decide +kernel,
    by decide +kernel, by decide +kernel⟩
  intro c hc
  simp only [List.mem_cons, List.not_mem_nil, or_false] at hc
  rcases hc with rfl | rfl <;> refine ⟨by simp, by simp, false, ?_⟩ <;> decide

/-- **C138 is violated**: with `=` on all columns of the index the row is looked up and returned
without a look at the row comparison.  `WHERE a = 1 AND b = 2 AND (a, b) > (1, 5)` on a table with
primary key `(a, b)` returns the row `(1, 2)`. -/
theorem C138_violated_exact :
    ∃ (fs : List Field) (eqs : List (Option Int)) (c : RowCond) (r : Row),
      eqs.length = r.length ∧ c.Plain fs ∧ ¬ c.Holds r ∧ emits fs eqs [c] r = some true :=
  ⟨[⟨true, false, false⟩, ⟨true, false, false⟩], [some 1, some 2],
    ⟨.gt, [⟨0, some 1⟩, ⟨1, some 5⟩]⟩, [some 1, some 2],
    rfl, ⟨by simp, by simp, true, by decide⟩, by unfold RowCond.Holds; decide +kernel,
    by decide +kernel⟩

/-- **C138 is violated**: on an index `(a, b DESC)` the comparison `(a, b) > (1, 2)` misses the row
`(1, 3)` and returns the row `(1, 1)`: the bounds of all members are lower bounds in the order of
the index, as for the first. -/
theorem C138_violated_mixed :
    ∃ (fs : List Field) (eqs : List (Option Int)) (c : RowCond) (r r' : Row),
      none ∈ eqs ∧ eqs.length = r.length ∧ eqs.length = r'.length ∧
      (∀ m ∈ c.members, m.arg ≠ none) ∧
      c.Holds r ∧ emits fs eqs [c] r = some false ∧
      ¬ c.Holds r' ∧ emits fs eqs [c] r' = some true :=
  ⟨[⟨true, false, false⟩, ⟨false, true, false⟩], [none, none],
    ⟨.gt, [⟨0, some 1⟩, ⟨1, some 2⟩]⟩, [some 1, some 3], [some 1, some 1],
    by simp, rfl, rfl, by simp, by unfold RowCond.Holds; decide +kernel, by decide +kernel,
    by unfold RowCond.Holds; decide +kernel, by decide +kernel⟩

/-- **C138 is violated**: NULL as an argument behind the first is taken for the datum 0.
`(a, b) > (1, NULL)` returns the row `(1, 5)`, for which the comparison is NULL; if `b` is of a
type passed by reference its comparison function is given a null pointer. -/
theorem C138_violated_null :
    ∃ (eqs : List (Option Int)) (c : RowCond) (r : Row),
      none ∈ eqs ∧ eqs.length = r.length ∧ (c.members.head?.bind (·.arg)).isSome ∧ ¬ c.Holds r ∧
      emits [⟨true, false, false⟩, ⟨true, false, false⟩] eqs [c] r = some true ∧
      emits [⟨true, false, false⟩, ⟨true, false, true⟩] eqs [c] r = none :=
  ⟨[none, none], ⟨.gt, [⟨0, some 1⟩, ⟨1, none⟩]⟩, [some 1, some 5],
    by simp, rfl, rfl, by unfold RowCond.Holds; decide +kernel, by decide +kernel,
    by decide +kernel⟩

/-! ## C139 — arrays that are not on the leading columns -/

/-- **C139 (in part).**  A row is accepted by a scan with arrays (in the order of the index, without
repetitions) on some columns if and only if each of these columns has an element of its array; in
particular rows with NULL there are not accepted.  Missing: rows with NULL in such a column if its
type is passed by reference, see below. -/
theorem C139_partial (fs : List Field) (as : List Arr) (r : Row)
    (hs : ∀ a ∈ as, SortedIn (fieldOf fs a.col).asc a.elems)
    (hn : ∀ a ∈ as, (fieldOf fs a.col).byRef = true → valueOf r a.col ≠ none) :
    ∃ b, tupleValid fs as r = some b ∧
      (b = true ↔ ∀ a ∈ as, ∃ v ∈ a.elems, valueOf r a.col = some v) :=
  tupleValid_eq fs r as hs hn

/-- Arrays on the columns `b` and `c DESC` of an index `(a, b, c DESC)`; NULL in `b` with 0 in the
array is not accepted. -/
theorem C139_partial_case :
    let fs : List Field := [⟨true, false, false⟩, ⟨true, false, false⟩, ⟨false, true, true⟩]
    let as : List Arr := [⟨1, [-3, 0, 4, 7]⟩, ⟨2, [9, 5, 2]⟩]
    (∀ a ∈ as, SortedIn (fieldOf fs a.col).asc a.elems) ∧
      (∀ a ∈ as, (fieldOf fs a.col).byRef = true → valueOf [some 8, none, some 2] a.col ≠ none) ∧
      tupleValid fs as [some 8, some 4, some 2] = some true ∧
      tupleValid fs as [some 8, some 7, some 9] = some true ∧
      tupleValid fs as [some 8, some 4, some 3] = some false ∧
      tupleValid fs as [some 8, none, some 2] = some false := by
  refine ⟨?_, by decide, by decide +kernel, by decide +kernel, by decide +kernel,
    by decide +kernel⟩
  intro a ha
  simp only [List.mem_cons, List.not_mem_nil, or_false] at ha
  rcases ha with rfl | rfl <;> exact ⟨by simp, by decide⟩

/-- **C139 is violated**: the loop over the arrays goes on for a row that has been refused and does
not look whether the value is NULL.  `WHERE a > 1 AND b = ANY ('{x,y}'::text[])` with an index on
`(a, b)` calls the comparison function of `text` on a null pointer when it meets a row whose `b` is
NULL. -/
theorem C139_violated :
    ∃ (fs : List Field) (as : List Arr) (r : Row),
      (∀ a ∈ as, SortedIn (fieldOf fs a.col).asc a.elems) ∧
      (¬ ∀ a ∈ as, ∃ v ∈ a.elems, valueOf r a.col = some v) ∧
      tupleValid fs as r = none := by
  refine ⟨[⟨true, false, false⟩, ⟨true, false, true⟩], [⟨1, [10, 20]⟩], [some 2, none], ?_, ?_,
    by decide +kernel⟩
  · intro a ha
    simp only [List.mem_cons, List.not_mem_nil, or_false] at ha
    subst ha
    exact ⟨by simp, by decide⟩
  · intro h
    obtain ⟨v, _, e⟩ := h ⟨1, [10, 20]⟩ (by simp)
    cases e

/-! ## C140 — arrays on the leading columns -/

/-- **C140.**  A scan with an array on each of the first columns of an index ends, and returns the
rows of the index whose first columns are among the elements of their arrays, each once, in the
order of the index — in the opposite order if the scan is backward. -/
theorem C140 (fwd : Bool) (fs : List Field) (ess : List (List Int)) (rows : List Row)
    (hok : ArraysOk fs ess) (hrows : rows.Pairwise (RowLt fs)) :
    (∃ out, ScanGives fwd ess rows out) ∧
      ∀ out, ScanGives fwd ess rows out →
        out = (if fwd then rows else rows.reverse).filter (matchesAll ess) :=
  ⟨⟨_, (scanGives_iff fwd fs ess rows _ hok hrows).mpr rfl⟩,
    fun out h => (scanGives_iff fwd fs ess rows out hok hrows).mp h⟩

/-- The index `(a, b DESC, c)` of the case below. -/
private def case140Fs : List Field :=
  [⟨true, false, false⟩, ⟨false, true, false⟩, ⟨true, false, false⟩]

/-- Rows of the case below. -/
private def case140Rows : List Row :=
  [[some 1, some 8, some 1], [some 1, some 5, some 1], [some 1, some 5, some 2],
   [some 2, some 8, some 3], [some 3, none, some 1], [some 3, some 8, some 1],
   [some 3, some 5, some 4]]

/-- `a = ANY ('{1,3}') AND b = ANY ('{8,5}')`. -/
theorem C140_case :
    ArraysOk case140Fs [[1, 3], [8, 5]] ∧ case140Rows.Pairwise (RowLt case140Fs) ∧
      ScanGives true [[1, 3], [8, 5]] case140Rows
        [[some 1, some 8, some 1], [some 1, some 5, some 1], [some 1, some 5, some 2],
         [some 3, some 8, some 1], [some 3, some 5, some 4]] ∧
      ScanGives false [[1, 3], [8, 5]] case140Rows
        [[some 3, some 5, some 4], [some 3, some 8, some 1], [some 1, some 5, some 2],
         [some 1, some 5, some 1], [some 1, some 8, some 1]] := by
  have h1 : ArraysOk case140Fs [[1, 3], [8, 5]] :=
    ⟨⟨by simp, by decide⟩, ⟨by simp, by decide⟩, trivial⟩
  have h2 : case140Rows.Pairwise (RowLt case140Fs) := by
    simp [case140Rows, case140Fs, RowLt, ColLt]
  refine ⟨h1, h2, ?_, ?_⟩
  · exact (scanGives_iff true _ _ _ _ h1 h2).mpr (by decide +kernel)
  · exact (scanGives_iff false _ _ _ _ h1 h2).mpr (by decide +kernel)

end Verif.ArrayScan
