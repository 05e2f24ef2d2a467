import Verif.ArrayScan.Spec

/-! # Arrays looked up in `is_tuple_valid`: proofs -/

namespace Verif.ArrayScan

theorem getD_get (es : List Int) (i : Nat) (h : i < es.length) : es.getD i 0 = es[i] := by
  simp [List.getD, h]

/-- The comparison of `bsearch` with the middle element; only for the proofs, not from the
source. -/
def ocmp (asc : Bool) (v x : Int) : Int := if asc then icmp v x else - icmp v x

theorem ocmp_zero (asc : Bool) (v x : Int) : ocmp asc v x = 0 ↔ x = v := by
  unfold ocmp icmp
  cases asc <;> simp only [if_true, if_false, Bool.false_eq_true] <;>
    by_cases h : v < x <;> by_cases h' : x < v <;> simp [h, h'] <;> omega

theorem ocmp_neg (asc : Bool) (v x : Int) :
    ocmp asc v x < 0 ↔ if asc then v < x else x < v := by
  unfold ocmp icmp
  cases asc <;> simp only [if_true, if_false, Bool.false_eq_true] <;>
    by_cases h : v < x <;> by_cases h' : x < v <;> simp [h, h'] <;> omega

theorem sorted_get {asc : Bool} {es : List Int} (h : SortedIn asc es) {i j : Nat} (hij : i < j)
    (hj : j < es.length) :
    if asc then es.getD i 0 < es.getD j 0 else es.getD j 0 < es.getD i 0 := by
  have := List.pairwise_iff_getElem.mp h.2 i j (by omega) hj hij
  rw [getD_get _ _ (by omega), getD_get _ _ hj]
  exact this

theorem bsearch_iff (asc : Bool) (v : Int) (es : List Int) (h : SortedIn asc es) (lo hi : Nat)
    (hhi : hi ≤ es.length) :
    bsearch asc v es lo hi = true ↔ ∃ i, lo ≤ i ∧ i < hi ∧ es.getD i 0 = v := by
  fun_induction bsearch asc v es lo hi with
  | case1 lo hi hlt mid c c' hc =>
    have hc : ocmp asc v (es.getD mid 0) = 0 := hc
    rw [ocmp_zero] at hc
    simp only [true_iff]
    exact ⟨mid, by omega, by omega, hc⟩
  | case2 lo hi hlt mid c c' hc hneg ih =>
    have hc : ¬ ocmp asc v (es.getD mid 0) = 0 := hc
    have hneg : ocmp asc v (es.getD mid 0) < 0 := hneg
    clear_value c' c
    rw [ih (by omega)]
    constructor
    · rintro ⟨i, h1, h2, h3⟩
      exact ⟨i, h1, by omega, h3⟩
    · rintro ⟨i, h1, h2, h3⟩
      refine ⟨i, h1, ?_, h3⟩
      by_cases hlt' : i < mid
      · exact hlt'
      exfalso
      rcases (show i = mid ∨ mid < i by omega) with e | e
      · subst e
        exact hc ((ocmp_zero _ _ _).mpr h3)
      · have := sorted_get h e (by omega)
        rw [h3] at this
        rw [ocmp_neg] at hneg
        cases asc <;> simp only [if_true, if_false, Bool.false_eq_true] at this hneg <;> omega
  | case3 lo hi hlt mid c c' hc hneg ih =>
    have hc : ¬ ocmp asc v (es.getD mid 0) = 0 := hc
    have hneg : ¬ ocmp asc v (es.getD mid 0) < 0 := hneg
    clear_value c' c
    rw [ih (by omega)]
    constructor
    · rintro ⟨i, h1, h2, h3⟩
      exact ⟨i, by omega, h2, h3⟩
    · rintro ⟨i, h1, h2, h3⟩
      refine ⟨i, ?_, h2, h3⟩
      by_cases hlt' : mid < i
      · exact hlt'
      exfalso
      rcases (show i = mid ∨ i < mid by omega) with e | e
      · subst e
        exact hc ((ocmp_zero _ _ _).mpr h3)
      · have := sorted_get h e (by omega)
        rw [h3] at this
        rw [ocmp_neg] at hneg
        cases asc <;> simp only [if_true, if_false, Bool.false_eq_true] at this hneg <;> omega
  | case4 lo hi hlt =>
    simp only [Bool.false_eq_true, false_iff]
    rintro ⟨i, h1, h2, _⟩
    omega

theorem bsearch_mem (asc : Bool) (v : Int) (es : List Int) (h : SortedIn asc es) :
    bsearch asc v es 0 es.length = true ↔ v ∈ es := by
  rw [bsearch_iff asc v es h 0 _ (Nat.le_refl _), List.mem_iff_getElem]
  constructor
  · rintro ⟨i, _, h2, h3⟩
    rw [getD_get _ _ h2] at h3
    exact ⟨i, h2, h3⟩
  · rintro ⟨i, h2, h3⟩
    refine ⟨i, by omega, h2, ?_⟩
    rw [getD_get _ _ h2]
    exact h3

theorem mem_bounds (fs : List Field) (r : Row) (a : Arr) (h : SortedIn (fieldOf fs a.col).asc a.elems)
    (ha : a.Holds r) : arrBounds fs r a = true := by
  obtain ⟨v, hv, e⟩ := ha
  obtain ⟨col, es⟩ := a
  obtain ⟨i, hi, ei⟩ := List.mem_iff_getElem.mp hv
  simp only at h hv e hi ei
  have hh : es.headD 0 = es.getD 0 0 := by cases es <;> rfl
  have hl : es.getLastD 0 = es.getD (es.length - 1) 0 := by
    rw [List.getLastD_eq_getLast?, List.getLast?_eq_getElem?, List.getD_eq_getElem?_getD]
  have g0 := fun p : 0 < i => sorted_get h p hi
  have g1 := fun p : i < es.length - 1 => sorted_get h p (by omega)
  rw [getD_get _ _ hi, ei] at g0 g1
  simp only [arrBounds, e, hh, hl]
  have c0 : i = 0 → es.getD 0 0 = v := by
    intro p; subst p; rw [getD_get _ _ hi]; exact ei
  have c1 : i = es.length - 1 → es.getD (es.length - 1) 0 = v := by
    intro p; rw [← p, getD_get _ _ hi]; exact ei
  cases hasc : (fieldOf fs col).asc <;> rw [hasc] at g0 g1 <;>
    simp only [if_true, if_false, Bool.false_eq_true, Bool.and_eq_true, decide_eq_true_eq] at * <;>
    refine ⟨?_, ?_⟩
  all_goals
    first
    | (by_cases p : i = 0
       · have := c0 p; omega
       · have := g0 (by omega); omega)
    | (by_cases p : i = es.length - 1
       · have := c1 p; omega
       · have := g1 (by omega); omega)

theorem arrsValid_eq (fs : List Field) (r : Row) :
    ∀ (as : List Arr) (b : Bool),
      (∀ a ∈ as, SortedIn (fieldOf fs a.col).asc a.elems) →
      (∀ a ∈ as, (fieldOf fs a.col).byRef = true → valueOf r a.col ≠ none) →
      ∃ q, arrsValid fs r b as = some q ∧
        ((∀ a ∈ as, valueOf r a.col ≠ none) → (q = true ↔ b = true ∧ ∀ a ∈ as, a.Holds r)) ∧
        (b = false → q = false)
  | [], b, _, _ => ⟨b, rfl, by simp, id⟩
  | a :: as, b, hs, hn => by
    have hs' := fun x hx => hs x (List.mem_cons_of_mem a hx)
    have hn' := fun x hx => hn x (List.mem_cons_of_mem a hx)
    have hm := fun v => bsearch_mem (fieldOf fs a.col).asc v a.elems (hs a (by simp))
    cases hx : valueOf r a.col with
    | none =>
      have hr : (fieldOf fs a.col).byRef = false := by
        cases h : (fieldOf fs a.col).byRef
        · rfl
        · exact absurd hx (hn a (by simp) h)
      obtain ⟨q, e, _, h2⟩ := arrsValid_eq fs r as
        (b && bsearch (fieldOf fs a.col).asc 0 a.elems 0 a.elems.length) hs' hn'
      refine ⟨q, ?_, ?_, ?_⟩
      · simp only [arrsValid, arrLookup, hx, hr]
        exact e
      · intro h
        exact absurd hx (h a (by simp))
      · intro h
        exact h2 (by simp [h])
    | some v =>
      obtain ⟨q, e, h1, h2⟩ := arrsValid_eq fs r as
        (b && bsearch (fieldOf fs a.col).asc v a.elems 0 a.elems.length) hs' hn'
      refine ⟨q, ?_, ?_, ?_⟩
      · simp only [arrsValid, arrLookup, hx]
        exact e
      · intro h
        rw [h1 fun x hx => h x (List.mem_cons_of_mem a hx)]
        have : a.Holds r ↔ bsearch (fieldOf fs a.col).asc v a.elems 0 a.elems.length = true := by
          rw [hm v]
          constructor
          · rintro ⟨w, hw, e'⟩
            rw [hx] at e'
            cases e'
            exact hw
          · intro h
            exact ⟨v, h, hx⟩
        simp only [Bool.and_eq_true, List.mem_cons, forall_eq_or_imp, this, and_assoc]
      · intro h
        exact h2 (by simp [h])

theorem tupleValid_eq (fs : List Field) (r : Row) (as : List Arr)
    (hs : ∀ a ∈ as, SortedIn (fieldOf fs a.col).asc a.elems)
    (hn : ∀ a ∈ as, (fieldOf fs a.col).byRef = true → valueOf r a.col ≠ none) :
    ∃ q, tupleValid fs as r = some q ∧ (q = true ↔ ∀ a ∈ as, a.Holds r) := by
  obtain ⟨q, e, h1, h2⟩ := arrsValid_eq fs r as (as.all fun a => arrBounds fs r a) hs hn
  refine ⟨q, e, ?_⟩
  by_cases hall : ∀ a ∈ as, valueOf r a.col ≠ none
  · rw [h1 hall]
    constructor
    · exact fun h => h.2
    · intro h
      refine ⟨List.all_eq_true.mpr fun a ha => mem_bounds fs r a (hs a ha) (h a ha), h⟩
  · have hex : ∃ a ∈ as, valueOf r a.col = none := by
      by_cases hh : ∃ a ∈ as, valueOf r a.col = none
      · exact hh
      · exact absurd (fun a ha e => hh ⟨a, ha, e⟩) hall
    obtain ⟨a, ha, e'⟩ := hex
    have hb : (as.all fun a => arrBounds fs r a) = false := by
      apply Bool.eq_false_iff.mpr
      intro hh
      have := List.all_eq_true.mp hh a ha
      simp [arrBounds, e'] at this
    rw [h2 hb]
    constructor
    · intro h; cases h
    · intro h
      obtain ⟨v, _, e2⟩ := h a ha
      rw [e'] at e2
      cases e2

end Verif.ArrayScan
