import Verif.ArrayScan.SkipMany

/-! # Index scans that skip leading columns: the property -/

namespace Verif.ArrayScan

theorem nonull_of : ∀ (fs : List Field) (r : Row),
    (∀ j, j < fs.length → valueOf r j ≠ none) → NoNull fs r
  | [], _, _ => trivial
  | f :: fs, [], h => absurd (h 0 (by simp)) (by simp [valueOf])
  | f :: fs, none :: r, h => absurd (h 0 (by simp)) (by simp [valueOf])
  | f :: fs, some v :: r, h => by
    refine nonull_of fs r fun j hj => ?_
    have := h (j + 1) (by simpa using hj)
    simpa [valueOf] using this

/-- **C141, in part**: a query asks something (`P`) of the columns behind the first ones, `f` and
`fs`, of an index and nothing of these.  Read with skip arrays on them, by an index with any order of
its columns and in either direction, the scan ends, and returns exactly the rows asked for, each once,
in the order of the scan.

Missing from the full statement: with two or more skip arrays, there is no NULL in the columns of the
second and further ones, and NULL in the column of the first one comes last in the order of the scan
(NULLS LAST and forward, or NULLS FIRST and backward).  Without the former the scan loses rows
(`C141_violated_null`), without the latter it loses rows (`C141_violated_lost`) and returns rows
twice (`C141_violated_twice`). -/
theorem C141_partial (fwd : Bool) (f : Field) (fs gs : List Field) (P : Row → Bool)
    (rows out : List Row) (hrows : rows.Pairwise (RowLt (f :: fs ++ gs)))
    (hlen : ∀ r ∈ rows, r.length = (f :: fs ++ gs).length)
    (hnull : fs = [] ∨ ∀ r ∈ rows, (valueOf r 0 = none → f.nullfirst = !fwd) ∧
      ∀ j, 0 < j → j < (f :: fs).length → valueOf r j ≠ none) :
    SkipGives fwd (f :: fs) P rows out ↔
      out = (if fwd then rows else rows.reverse).filter P := by
  have hcons : ∀ r ∈ rows, r ≠ [] := by
    intro r hr e
    have := hlen r hr
    rw [e] at this
    simp at this
  rcases hnull with h1 | hn
  · subst h1
    exact skip_one fwd f gs P rows out hrows hcons
  · refine skip_many fwd f fs gs P rows out hrows (fun r hr => ?_) fun r hr h => ?_
    · have hn := (hn r hr).2
      have hne := hcons r hr
      cases r with
      | nil => exact absurd rfl hne
      | cons x r =>
        refine ⟨x, r, rfl, nonull_of fs r fun j hj => ?_⟩
        have := hn (j + 1) (by omega) (by simpa using hj)
        simpa [valueOf] using this
    · have := (hn r hr).1 h
      rw [this]
      cases fwd <;> simp

/-- Columns of an index as declared by default: ascending, NULL last
(src/catalog/o_indices.c:1577-1587); for the cases. -/
def asc3 : List Field := [⟨true, false, false⟩, ⟨true, false, false⟩, ⟨true, false, false⟩]

/-- Two skip arrays and a condition on the third column, read backward, with NULL in the first
column, NULLS FIRST: three of the six rows. -/
theorem C141_partial_case :
    let f : Field := ⟨true, true, false⟩
    let fs : List Field := [⟨false, true, false⟩]
    let gs : List Field := [⟨true, false, false⟩]
    let P : Row → Bool := fun r => decide (valueOf r 2 = some 3)
    let rows : List Row := [[none, some 8, some 3], [some 1, some 9, some 3],
      [some 1, some 9, some 4], [some 1, some 5, some 2], [some 2, some 7, some 3],
      [some 2, some 1, none]]
    rows.Pairwise (RowLt (f :: fs ++ gs)) ∧ (∀ r ∈ rows, r.length = (f :: fs ++ gs).length) ∧
      (∀ r ∈ rows, (valueOf r 0 = none → f.nullfirst = !false) ∧
        ∀ j, 0 < j → j < (f :: fs).length → valueOf r j ≠ none) ∧
      SkipGives false (f :: fs) P rows
        [[some 2, some 7, some 3], [some 1, some 9, some 3], [none, some 8, some 3]] := by
  refine ⟨by simp [RowLt, ColLt], by simp, ?_, ?_⟩
  · intro r hr
    refine ⟨fun _ => rfl, fun j hj0 hj => ?_⟩
    have hj : j = 1 := by simp at hj; omega
    subst hj
    simp only [List.mem_cons, List.not_mem_nil, or_false] at hr
    rcases hr with h | h | h | h | h | h <;> subst h <;> simp [valueOf]
  · exact skipRun_gives (n := 20) (by decide +kernel)

/-- One skip array on a column with NULL, read forward. -/
theorem C141_partial_case_null :
    let fs : List Field := [⟨true, false, false⟩]
    let gs : List Field := [⟨true, false, false⟩]
    let P : Row → Bool := fun r => decide (valueOf r 1 = some 3)
    let rows : List Row := [[some 1, some 3], [some 2, some 4], [some 5, some 3],
      [none, some 2], [none, some 3]]
    rows.Pairwise (RowLt (fs ++ gs)) ∧ (∀ r ∈ rows, r.length = fs.length + gs.length) ∧
      SkipGives true fs P rows [[some 1, some 3], [some 5, some 3], [none, some 3]] := by
  refine ⟨by simp [RowLt, ColLt], by simp, ?_⟩
  exact skipRun_gives (n := 20) (by decide +kernel)

/-- **C141 fails** for NULL in the second of two skipped columns: `(1, NULL, 3)` is asked for and not
returned, as `is_tuple_valid` refuses NULL for the bound "behind 2" of that column
(src/tableam/index_scan.c:136-163). -/
theorem C141_violated_null :
    ∃ (P : Row → Bool) (rows out : List Row), rows.Pairwise (RowLt asc3) ∧
      (∀ r ∈ rows, r.length = 3) ∧ SkipGives true (asc3.take 2) P rows out ∧
      [some 1, none, some 3] ∈ rows ∧ P [some 1, none, some 3] = true ∧
      [some 1, none, some 3] ∉ out := by
  refine ⟨fun r => decide (valueOf r 2 = some 3),
    [[some 1, some 2, some 3], [some 1, none, some 3]], [[some 1, some 2, some 3]],
    by simp [asc3, RowLt, ColLt], by simp,
    skipRun_gives (n := 20) (by decide +kernel), by simp, by decide, by simp⟩

/-- **C141 fails** for NULL in the first of two skipped columns, read backward: the first row found
is `(NULL, 5, 3)`; the second column is bound to its value and the first is not, so `(1, 7, 3)` is
not returned (src/tableam/index_scan.c:688-744). -/
theorem C141_violated_lost :
    ∃ (P : Row → Bool) (rows out : List Row), rows.Pairwise (RowLt asc3) ∧
      (∀ r ∈ rows, r.length = 3) ∧ SkipGives false (asc3.take 2) P rows out ∧
      [some 1, some 7, some 3] ∈ rows ∧ P [some 1, some 7, some 3] = true ∧
      [some 1, some 7, some 3] ∉ out := by
  refine ⟨fun r => decide (valueOf r 2 = some 3),
    [[some 1, some 5, some 3], [some 1, some 7, some 3], [none, some 5, some 3]],
    [[none, some 5, some 3], [some 1, some 5, some 3]],
    by simp [asc3, RowLt, ColLt], by simp,
    skipRun_gives (n := 20) (by decide +kernel), by simp, by decide, by simp⟩

/-- **C141 fails** in the same case also by returning a row twice
(src/tableam/index_scan.c:688-744). -/
theorem C141_violated_twice :
    ∃ (P : Row → Bool) (rows out : List Row), rows.Pairwise (RowLt asc3) ∧
      (∀ r ∈ rows, r.length = 3) ∧ SkipGives false (asc3.take 2) P rows out ∧
      rows.count [some 1, some 5, some 3] = 1 ∧ out.count [some 1, some 5, some 3] = 2 := by
  refine ⟨fun r => decide (valueOf r 2 = some 3),
    [[some 1, some 5, some 3], [some 2, some 4, some 3], [none, some 5, some 3]],
    ((skipRun false (asc3.take 2) (fun r => decide (valueOf r 2 = some 3))
      [[none, some 5, some 3], [some 2, some 4, some 3], [some 1, some 5, some 3]] 20
      ((asc3.take 2).map (Skip.start false))).getD []),
    by simp [asc3, RowLt, ColLt], by simp,
    skipRun_gives (n := 20) (by decide +kernel), by decide +kernel, by decide +kernel⟩

end Verif.ArrayScan
