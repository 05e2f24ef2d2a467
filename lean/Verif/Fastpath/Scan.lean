import Verif.Fastpath.Range

/-!
# Scans return the rows that satisfy their conditions
-/

namespace Verif.Fastpath

/-- Every column is in its range. -/
def AllOk : List Field → List (VB × VB) → Row → Prop
  | f :: fs, lh :: rs, x :: r => colOk f lh x ∧ AllOk fs rs r
  | _, _, _ => True

/-- The columns of the conditions, from column `j` on, are among the first `n` and compared. -/
def KeyCols (cs : List SCond) (fs : List Field) (n j : Nat) : Prop :=
  ∀ c ∈ cs, j ≤ c.col → ∃ f, (fs.take n)[c.col - j]? = some f ∧ f.ignored = false

theorem KeyCols.tail {cs : List SCond} {f : Field} {fs : List Field} {n j : Nat}
    (h : KeyCols cs (f :: fs) (n + 1) j) : KeyCols cs fs n (j + 1) := by
  intro c hc hj
  obtain ⟨g, hg, hi⟩ := h c hc (by omega)
  refine ⟨g, ?_, hi⟩
  rw [List.take_succ_cons] at hg
  rw [show c.col - j = (c.col - (j + 1)) + 1 by omega, List.getElem?_cons_succ] at hg
  exact hg

theorem KeyCols.none {cs : List SCond} {fs : List Field} {j : Nat} (h : KeyCols cs fs 0 j) :
    ∀ c ∈ cs, c.col < j := by
  intro c hc
  rcases Nat.lt_or_ge c.col j with h1 | h1
  · exact h1
  · obtain ⟨g, hg, _⟩ := h c hc h1
    simp at hg

theorem colRanges_free {cs : List SCond} : ∀ (fs : List Field) (j : Nat) (r : Row),
    (∀ c ∈ cs, c.col < j) → AllOk fs (colRanges cs fs j) r := by
  intro fs
  induction fs with
  | nil => intro j r _; simp [AllOk]
  | cons f fs ih =>
    intro j r h
    cases r with
    | nil => simp [colRanges, AllOk]
    | cons x r =>
      simp only [colRanges, AllOk]
      refine ⟨?_, ih (j + 1) r (fun c hc => by have := h c hc; omega)⟩
      rw [colRange_none (fun c hc => by have := h c hc; omega)]
      exact ⟨Or.inl rfl, Or.inl rfl⟩

/-- Ranges hold what the conditions hold. -/
theorem allOk_iff {cs : List SCond} : ∀ (fs : List Field) (j : Nat) (r : Row),
    r.length = fs.length →
    (AllOk fs (colRanges cs fs j) r ↔
      ∀ c ∈ cs, j ≤ c.col → ∀ f x, fs[c.col - j]? = some f → r[c.col - j]? = some x →
        c.holds f x = true) := by
  intro fs
  induction fs with
  | nil =>
    intro j r _
    simp [AllOk]
  | cons f fs ih =>
    intro j r hl
    cases r with
    | nil => simp at hl
    | cons x r =>
      simp only [colRanges, AllOk]
      rw [(colRange_ok f cs j).2.2 x, ih (j + 1) r (by simpa using hl)]
      constructor
      · rintro ⟨h1, h2⟩ c hc hj g y hg hy
        rcases Nat.eq_or_lt_of_le hj with h3 | h3
        · rw [← h3, Nat.sub_self, List.getElem?_cons_zero] at hg hy
          have hg' := Option.some.inj hg
          have hy' := Option.some.inj hy
          subst hg'; subst hy'
          exact h1 c hc h3.symm
        · rw [show c.col - j = (c.col - (j + 1)) + 1 by omega, List.getElem?_cons_succ] at hg hy
          exact h2 c hc h3 g y hg hy
      · intro h
        constructor
        · intro c hc hj
          exact h c hc (by omega) f x (by rw [hj, Nat.sub_self]; rfl) (by rw [hj, Nat.sub_self]; rfl)
        · intro c hc hj g y hg hy
          refine h c hc (by omega) g y ?_ ?_
          · rw [show c.col - j = (c.col - (j + 1)) + 1 by omega, List.getElem?_cons_succ]
            exact hg
          · rw [show c.col - j = (c.col - (j + 1)) + 1 by omega, List.getElem?_cons_succ]
            exact hy

/-! ## The check of rows -/

theorem valid_later {cs : List SCond} {np : Nat} : ∀ (fs : List Field) (j : Nat) (r : Row),
    np + 1 ≤ j → validFrom np fs (colRanges cs fs j) r j = true → AllOk fs (colRanges cs fs j) r := by
  intro fs
  induction fs with
  | nil => intro j r _ _; simp [AllOk]
  | cons f fs ih =>
    intro j r hj h
    cases r with
    | nil => simp [colRanges, AllOk]
    | cons x r =>
      simp only [colRanges, validFrom, AllOk] at h ⊢
      rw [if_pos hj] at h
      simp only [Bool.and_eq_true, Bool.or_eq_true, decide_eq_true_eq] at h
      obtain ⟨⟨h1, h2⟩, h3⟩ := h
      refine ⟨⟨?_, ?_⟩, ih (j + 1) r (by omega) h3⟩
      · rcases h1 with h1 | h1
        · exact Or.inl h1
        · exact Or.inr h1.2
      · rcases h2 with h2 | h2
        · exact Or.inl h2
        · exact Or.inr h2.2

theorem valid_of_all {cs : List SCond} {np : Nat} : ∀ (fs : List Field) (j : Nat) (r : Row),
    AllOk fs (colRanges cs fs j) r → validFrom np fs (colRanges cs fs j) r j = true := by
  intro fs
  induction fs with
  | nil => intro j r _; simp [colRanges, validFrom]
  | cons f fs ih =>
    intro j r h
    cases r with
    | nil => simp [colRanges, validFrom]
    | cons x r =>
      simp only [colRanges, AllOk] at h
      obtain ⟨h1, h2⟩ := h
      obtain ⟨s1, s2⟩ := colRange_set h1
      simp only [colRanges, validFrom]
      rw [ih (j + 1) r h2, Bool.and_true]
      by_cases hj : np + 1 ≤ j
      · rw [if_pos hj]
        simp only [Bool.and_eq_true, Bool.or_eq_true, decide_eq_true_eq]
        constructor
        · cases hu : (colRange f cs j).1.unb with
          | true => exact Or.inl rfl
          | false =>
            right
            refine ⟨?_, ?_⟩
            · cases hn : (colRange f cs j).1.isnull with
              | true => exact Or.inl rfl
              | false => exact Or.inr (s1 hu hn)
            · rcases h1.1 with h | h
              · rw [hu] at h; cases h
              · exact h
        · cases hu : (colRange f cs j).2.unb with
          | true => exact Or.inl rfl
          | false =>
            right
            refine ⟨?_, ?_⟩
            · cases hn : (colRange f cs j).2.isnull with
              | true => exact Or.inl rfl
              | false => exact Or.inr (s2 hu hn)
            · rcases h1.2 with h | h
              · rw [hu] at h; cases h
              · exact h
      · rw [if_neg hj]

/-- Rows between the bounds that the check accepts are in the ranges. -/
theorem all_of_bounds {cs : List SCond} {np : Nat} : ∀ (fs : List Field) (n j : Nat) (r : Row),
    r.length = fs.length → j ≤ np → KeyCols cs fs n j →
    (∀ i, j ≤ i → i < np → ∃ c ∈ cs, c.col = i ∧ c.op = .eq) →
    cmpBnd 0 (fs.take n) ((colRanges cs fs j).map (·.1)) r ≤ 0 →
    0 ≤ cmpBnd 0 (fs.take n) ((colRanges cs fs j).map (·.2)) r →
    validFrom np fs (colRanges cs fs j) r j = true → AllOk fs (colRanges cs fs j) r := by
  intro fs
  induction fs with
  | nil => intro n j r _ _ _ _ _ _ _; simp [AllOk]
  | cons f fs ih =>
    intro n j r hl hj hk hp h1 h2 hv
    cases r with
    | nil => simp at hl
    | cons x r =>
      cases n with
      | zero => exact colRanges_free _ j _ hk.none
      | succ n =>
        simp only [colRanges, List.map_cons, List.take_succ_cons, cmpBnd] at h1 h2
        simp only [colRanges, validFrom] at hv
        simp only [colRanges, AllOk]
        have hv2 : validFrom np fs (colRanges cs fs (j + 1)) r (j + 1) = true :=
          (Bool.and_eq_true_iff.1 hv).2
        obtain ⟨lb, hb, _⟩ := colRange_ok f cs j
        by_cases hi : f.ignored = true
        · -- no conditions on this column
          have hno : ∀ c ∈ cs, c.col ≠ j := by
            intro c hc hcj
            obtain ⟨g, hg, hgi⟩ := hk c hc (by omega)
            rw [hcj, Nat.sub_self, List.take_succ_cons, List.getElem?_cons_zero] at hg
            have := Option.some.inj hg
            rw [← this, hi] at hgi
            cases hgi
          have hnp : ¬ j < np := fun h => by
            obtain ⟨c, hc, hcj, _⟩ := hp j (Nat.le_refl _) h
            exact hno c hc hcj
          refine ⟨?_, valid_later fs (j + 1) r (by omega) hv2⟩
          rw [colRange_none hno]
          exact ⟨Or.inl rfl, Or.inl rfl⟩
        · rw [if_neg hi] at h1 h2
          have hlow : lowOk f (colRange f cs j).1 x := by
            cases hu : (colRange f cs j).1.unb with
            | true => exact Or.inl hu
            | false =>
              rw [hu] at h1
              simp only [Bool.false_eq_true, if_false] at h1
              right
              by_cases h0 : cmpVal f (colRange f cs j).1 x ≠ 0
              · rw [if_pos h0] at h1; exact h1
              · omega
          have hhigh : highOk f (colRange f cs j).2 x := by
            cases hu : (colRange f cs j).2.unb with
            | true => exact Or.inl hu
            | false =>
              rw [hu] at h2
              simp only [Bool.false_eq_true, if_false] at h2
              right
              by_cases h0 : cmpVal f (colRange f cs j).2 x ≠ 0
              · rw [if_pos h0] at h2; exact h2
              · omega
          refine ⟨⟨hlow, hhigh⟩, ?_⟩
          by_cases hnp : j < np
          · -- an equality: both bounds are equal to the value
            obtain ⟨c, hc, hcj, hop⟩ := hp j (Nat.le_refl _) hnp
            obtain ⟨u1, u2, hpt⟩ := colRange_point (f := f) hc hcj hop
            rw [u1] at h1
            rw [u2] at h2
            simp only [Bool.false_eq_true, if_false] at h1 h2
            have e1 : cmpVal f (colRange f cs j).1 x ≤ 0 := by
              rcases hlow with h | h
              · rw [u1] at h; cases h
              · exact h
            have e2 : 0 ≤ cmpVal f (colRange f cs j).2 x := by
              rcases hhigh with h | h
              · rw [u2] at h; cases h
              · exact h
            obtain ⟨z1, z2⟩ := hpt x e1 e2
            rw [if_neg (by omega)] at h1 h2
            exact ih n (j + 1) r (by simpa using hl) (by omega) hk.tail
              (fun i hi' hi'' => hp i (by omega) hi'') h1 h2 hv2
          · exact valid_later fs (j + 1) r (by omega) hv2

/-- Rows in the ranges are between the bounds. -/
theorem bounds_of_all {cs : List SCond} : ∀ (fs : List Field) (n j : Nat) (r : Row),
    AllOk fs (colRanges cs fs j) r →
    cmpBnd 0 (fs.take n) ((colRanges cs fs j).map (·.1)) r ≤ 0 ∧
    0 ≤ cmpBnd 0 (fs.take n) ((colRanges cs fs j).map (·.2)) r := by
  intro fs
  induction fs with
  | nil => intro n j r _; simp [cmpBnd]
  | cons f fs ih =>
    intro n j r h
    cases n with
    | zero => simp [cmpBnd]
    | succ n =>
      cases r with
      | nil => simp [cmpBnd, colRanges]
      | cons x r =>
        simp only [colRanges, AllOk] at h
        obtain ⟨⟨hl, hh⟩, h2⟩ := h
        obtain ⟨r1, r2⟩ := ih n (j + 1) r h2
        obtain ⟨lb, hb, _⟩ := colRange_ok f cs j
        simp only [colRanges, List.map_cons, List.take_succ_cons, cmpBnd]
        by_cases hi : f.ignored = true
        · rw [if_pos hi, if_pos hi]; exact ⟨r1, r2⟩
        · rw [if_neg hi, if_neg hi]
          constructor
          · cases hu : (colRange f cs j).1.unb with
            | true => simp [lb.1]
            | false =>
              simp only [Bool.false_eq_true, if_false]
              by_cases h0 : cmpVal f (colRange f cs j).1 x ≠ 0
              · rw [if_pos h0]
                rcases hl with h | h
                · rw [hu] at h; cases h
                · exact h
              · rw [if_neg h0]; exact r1
          · cases hu : (colRange f cs j).2.unb with
            | true => simp [hb.1]
            | false =>
              simp only [Bool.false_eq_true, if_false]
              by_cases h0 : cmpVal f (colRange f cs j).2 x ≠ 0
              · rw [if_pos h0]
                rcases hh with h | h
                · rw [hu] at h; cases h
                · exact h
              · rw [if_neg h0]; exact r2

/-- An empty range holds no row. -/
theorem empty_none {cs : List SCond} : ∀ (fs : List Field) (j : Nat) (r : Row),
    r.length = fs.length → rangeEmpty fs (colRanges cs fs j) = true →
    ¬ AllOk fs (colRanges cs fs j) r := by
  intro fs
  induction fs with
  | nil => intro j r _ h; simp [colRanges, rangeEmpty] at h
  | cons f fs ih =>
    intro j r hl h
    cases r with
    | nil => simp at hl
    | cons x r =>
      simp only [colRanges, rangeEmpty, Bool.or_eq_true, decide_eq_true_eq] at h
      simp only [colRanges, AllOk]
      intro ⟨a, b⟩
      obtain ⟨lb, hb, _⟩ := colRange_ok f cs j
      rcases h with h | h
      · exact range_empty lb hb h x a
      · exact ih (j + 1) r (by simpa using hl) h b

/-- A range that is one key holds the rows equal to it. -/
theorem exact_iff {cs : List SCond} : ∀ (fs : List Field) (n j : Nat) (r : Row),
    r.length = fs.length → KeyCols cs fs n j → rangeExact fs (colRanges cs fs j) = true →
    (AllOk fs (colRanges cs fs j) r ↔
      cmpBnd 0 (fs.take n) ((colRanges cs fs j).map (·.1)) r = 0) := by
  intro fs
  induction fs with
  | nil => intro n j r _ _ _; simp [AllOk, cmpBnd]
  | cons f fs ih =>
    intro n j r hl hk he
    cases r with
    | nil => simp at hl
    | cons x r =>
      simp only [colRanges, rangeExact, Bool.and_eq_true] at he
      obtain ⟨lb, hb, _⟩ := colRange_ok f cs j
      obtain ⟨u1, hx⟩ := range_exact lb hb he.1
      -- the column has a condition
      have hcond : ∃ c ∈ cs, c.col = j := by
        refine Classical.byContradiction fun hno => ?_
        have : ∀ c ∈ cs, c.col ≠ j := fun c hc hcj => hno ⟨c, hc, hcj⟩
        rw [colRange_none this] at u1
        cases u1
      obtain ⟨c, hc, hcj⟩ := hcond
      obtain ⟨g, hg, hgi⟩ := hk c hc (by omega)
      cases n with
      | zero => simp at hg
      | succ n =>
        rw [hcj, Nat.sub_self, List.take_succ_cons, List.getElem?_cons_zero] at hg
        have hfg := Option.some.inj hg
        rw [← hfg] at hgi
        have hi : ¬ f.ignored = true := by rw [hgi]; simp
        simp only [colRanges, List.map_cons, List.take_succ_cons, cmpBnd, AllOk, if_neg hi, u1,
          Bool.false_eq_true, if_false]
        rw [hx x, ih n (j + 1) r (by simpa using hl) hk.tail he.2]
        by_cases h0 : cmpVal f (colRange f cs j).1 x = 0
        · simp [h0]
        · simp [h0]

/-! ## Scans -/

theorem colRanges_length (cs : List SCond) : ∀ (fs : List Field) (j : Nat),
    (colRanges cs fs j).length = fs.length := by
  intro fs
  induction fs with
  | nil => intro j; rfl
  | cons f fs ih => intro j; simp [colRanges, ih]

theorem prefixExact_spec : ∀ (cs : List SCond) (j i : Nat), j ≤ i → i < prefixExact cs j →
    ∃ c ∈ cs, c.col = i ∧ c.op = .eq := by
  intro cs
  induction cs with
  | nil => intro j i h1 h2; simp only [prefixExact] at h2; omega
  | cons c cs ih =>
    intro j i h1 h2
    simp only [prefixExact] at h2
    by_cases hc : c.col = j ∧ c.op = .eq
    · rw [if_pos hc] at h2
      rcases Nat.eq_or_lt_of_le h1 with h3 | h3
      · exact ⟨c, List.mem_cons_self .., by omega, hc.2⟩
      · obtain ⟨d, hd, h4⟩ := ih (j + 1) i h3 h2
        exact ⟨d, List.mem_cons_of_mem _ hd, h4⟩
    · rw [if_neg hc] at h2; omega

/-- Whether a row satisfies a condition. -/
def SCond.on (ix : Idx) (c : SCond) (r : Row) : Bool :=
  match ix.fields[c.col]?, r[c.col]? with
  | some f, some x => c.holds f x
  | _, _ => false

/-- Conditions are on columns of the key. -/
def CondsOk (ix : Idx) (cs : List SCond) : Prop :=
  ∀ c ∈ cs, ∃ f, ix.cols[c.col]? = some f ∧ f.ignored = false

theorem Idx.cols_eq_take (ix : Idx) : ∃ n, ix.cols = ix.fields.take n := by
  unfold Idx.cols
  by_cases h : ix.kind = .primary
  · rw [if_pos h]; exact ⟨_, rfl⟩
  · rw [if_neg h]; exact ⟨ix.fields.length, by rw [List.take_length]⟩

theorem CondsOk.keyCols {ix : Idx} {cs : List SCond} (h : CondsOk ix cs) {n : Nat}
    (hn : ix.cols = ix.fields.take n) : KeyCols cs ix.fields n 0 := by
  intro c hc _
  obtain ⟨f, hf, hi⟩ := h c hc
  rw [hn] at hf
  exact ⟨f, hf, hi⟩

/-- The rows in the ranges are those that satisfy the conditions. -/
theorem allOk_on {ix : Idx} {cs : List SCond} (h : CondsOk ix cs) {r : Row} (hr : ix.Full r) :
    AllOk ix.fields (colRanges cs ix.fields 0) r ↔ cs.all (fun c => c.on ix r) = true := by
  rw [allOk_iff ix.fields 0 r hr, List.all_eq_true]
  have hcol : ∀ c ∈ cs, ∃ f x, ix.fields[c.col]? = some f ∧ r[c.col]? = some x := by
    intro c hc
    obtain ⟨f, hf, _⟩ := h c hc
    obtain ⟨n, hn⟩ := ix.cols_eq_take
    rw [hn, List.getElem?_take] at hf
    by_cases hlt : c.col < n
    · rw [if_pos hlt] at hf
      have hl := (List.getElem?_eq_some_iff.1 hf).1
      have hlr : c.col < r.length := by rw [hr]; exact hl
      exact ⟨f, r[c.col], hf, List.getElem?_eq_getElem hlr⟩
    · rw [if_neg hlt] at hf; cases hf
  constructor
  · intro hall c hc
    obtain ⟨f, x, hf, hx⟩ := hcol c hc
    have := hall c hc (Nat.zero_le _) f x hf hx
    unfold SCond.on
    rw [hf, hx]
    exact this
  · intro hall c hc _ f x hf hx
    have := hall c hc
    unfold SCond.on at this
    rw [Nat.sub_zero] at hf hx
    rw [hf, hx] at this
    exact this

theorem filter_one {α} {R : α → α → Prop} {l : List α} (hp : l.Pairwise R) {P : α → Bool} {a : α}
    (ha : a ∈ l) (hPa : P a = true) (hu : ∀ b c, b ∈ l → c ∈ l → R b c → P b = true → P c = true → False) :
    l.filter P = [a] := by
  induction l with
  | nil => cases ha
  | cons x l ih =>
    rw [List.pairwise_cons] at hp
    rcases List.mem_cons.1 ha with rfl | ha'
    · rw [List.filter_cons_of_pos hPa]
      have : l.filter P = [] := by
        rw [List.filter_eq_nil_iff]
        intro b hb hPb
        exact hu a b (List.mem_cons_self ..) (List.mem_cons_of_mem _ hb) (hp.1 b hb) hPa hPb
      rw [this]
    · have hx : ¬ P x = true := fun hPx =>
        hu x a (List.mem_cons_self ..) ha (hp.1 a ha') hPx hPa
      rw [List.filter_cons_of_neg hx]
      exact ih hp.2 ha' (fun b c hb hc => hu b c (List.mem_cons_of_mem _ hb) (List.mem_cons_of_mem _ hc))

theorem takeWhile_filter {α} {R : α → α → Prop} {P Q V : α → Bool} :
    ∀ {l : List α}, l.Pairwise R → (∀ a ∈ l, ∀ b ∈ l, R a b → Q b = true → Q a = true) →
      (∀ a ∈ l, P a = true → Q a = true) → (∀ a ∈ l, Q a = true → (V a = true ↔ P a = true)) →
      (l.takeWhile Q).filter V = l.filter P := by
  intro l
  induction l with
  | nil => intro _ _ _ _; rfl
  | cons x l ih =>
    intro hp hq hPQ hV
    rw [List.pairwise_cons] at hp
    by_cases hx : Q x = true
    · rw [List.takeWhile_cons_of_pos hx]
      have hrec := ih hp.2
        (fun a ha b hb => hq a (List.mem_cons_of_mem _ ha) b (List.mem_cons_of_mem _ hb))
        (fun a ha => hPQ a (List.mem_cons_of_mem _ ha)) (fun a ha => hV a (List.mem_cons_of_mem _ ha))
      have hvx := hV x (List.mem_cons_self ..) hx
      by_cases hPx : P x = true
      · rw [List.filter_cons_of_pos (hvx.2 hPx), List.filter_cons_of_pos hPx, hrec]
      · rw [List.filter_cons_of_neg (fun h => hPx (hvx.1 h)), List.filter_cons_of_neg hPx, hrec]
    · rw [List.takeWhile_cons_of_neg hx]
      symm
      rw [List.filter_nil, List.filter_eq_nil_iff]
      intro b hb hPb
      rcases List.mem_cons.1 hb with rfl | hb'
      · exact hx (hPQ b hb hPb)
      · exact hx (hq x (List.mem_cons_self ..) b hb (hp.1 b hb') (hPQ b hb hPb))

theorem exact_slow {ix : Idx} {cs : List SCond} (hcs : CondsOk ix cs) {n : Nat} {t : Tree n}
    (ok : TreeWf ix n t) (_he : rangeEmpty ix.fields (colRanges cs ix.fields 0) = false)
    (hx : rangeExact ix.fields (colRanges cs ix.fields 0) = true) :
    (lookup ix false (.bound ((colRanges cs ix.fields 0).map (·.1))) n t).map Option.toList
      = some ((Tree.rows n t).filter fun r => cs.all (fun c => c.on ix r)) := by
  obtain ⟨m, hm⟩ := ix.cols_eq_take
  have hkc := hcs.keyCols hm
  have hfull : ∀ r ∈ Tree.rows n t, ix.Full r := fun r hr =>
    (TreeOk.between n _ _ t ok r hr).1
  have hsrt := TreeOk.sorted n _ _ t ok
  have hall : ∀ r ∈ Tree.rows n t,
      (AllOk ix.fields (colRanges cs ix.fields 0) r ↔ cs.all (fun c => c.on ix r) = true) :=
    fun r hr => allOk_on hcs (hfull r hr)
  have hkl : ix.RowKey (.bound ((colRanges cs ix.fields 0).map (·.1))) := by
    show ((colRanges cs ix.fields 0).map (·.1)).length = ix.fields.length
    rw [List.length_map, colRanges_length]
  obtain ⟨res, hres, h1, h2⟩ := lookup_slow hkl ok
  rw [hres]
  simp only [Option.map_some]
  congr 1
  have hz : ∀ r ∈ Tree.rows n t, (cs.all (fun c => c.on ix r) = true ↔
      ix.cmpKey (.bound ((colRanges cs ix.fields 0).map (·.1))) r = 0) := by
    intro r hr
    rw [← hall r hr, exact_iff ix.fields m 0 r (hfull r hr) hkc hx]
    simp only [Idx.cmpKey, hm]
  cases res with
  | none =>
    symm
    show List.filter _ _ = []
    rw [List.filter_eq_nil_iff]
    intro r hr hc
    exact h2 rfl r hr ((hz r hr).1 hc)
  | some r =>
    obtain ⟨hr, hr0⟩ := h1 r rfl
    symm
    refine filter_one hsrt hr ((hz r hr).2 hr0) ?_
    intro b c hb hc hbc hPb hPc
    have hb0 := (hz b hb).1 hPb
    have hc0 := (hz c hc).1 hPc
    have := Idx.cmpKey_strict hkl (hfull b hb) (hfull c hc) hbc (by omega)
    omega

/-- The key at the lower end of a scan. -/
def lowKey (ix : Idx) (cs : List SCond) : SKey := .bound ((colRanges cs ix.fields 0).map (·.1))

/-- The key at the upper end of a scan. -/
def highKey (ix : Idx) (cs : List SCond) : SKey := .bound ((colRanges cs ix.fields 0).map (·.2))

theorem lowKey_row (ix : Idx) (cs : List SCond) : ix.RowKey (lowKey ix cs) := by
  show ((colRanges cs ix.fields 0).map (·.1)).length = ix.fields.length
  rw [List.length_map, colRanges_length]

theorem highKey_row (ix : Idx) (cs : List SCond) : ix.RowKey (highKey ix cs) := by
  show ((colRanges cs ix.fields 0).map (·.2)).length = ix.fields.length
  rw [List.length_map, colRanges_length]

/-- A scan whose search finds the place of the lower end. -/
theorem scan_of {ix : Idx} {fp : Bool} {cs : List SCond} (hcs : CondsOk ix cs) {n : Nat} {t : Tree n}
    (ok : TreeWf ix n t)
    (hlook : lookup ix fp (lowKey ix cs) n t = lookup ix false (lowKey ix cs) n t)
    (hat : ∃ q, descend ix fp (lowKey ix cs) n t = some q ∧
      AtKey ix (lowKey ix cs) (Tree.rows n t) q) :
    scan ix fp cs n t
      = some ((Tree.rows n t).filter fun r => cs.all (fun c => c.on ix r)) := by
  obtain ⟨m, hm⟩ := ix.cols_eq_take
  have hkc := hcs.keyCols hm
  have hfull : ∀ r ∈ Tree.rows n t, ix.Full r := fun r hr =>
    (TreeOk.between n _ _ t ok r hr).1
  have hsrt := TreeOk.sorted n _ _ t ok
  have hall : ∀ r ∈ Tree.rows n t,
      (AllOk ix.fields (colRanges cs ix.fields 0) r ↔ cs.all (fun c => c.on ix r) = true) :=
    fun r hr => allOk_on hcs (hfull r hr)
  have hkl : ix.RowKey (.bound ((colRanges cs ix.fields 0).map (·.1))) := by
    show ((colRanges cs ix.fields 0).map (·.1)).length = ix.fields.length
    rw [List.length_map, colRanges_length]
  have hkh : ix.RowKey (.bound ((colRanges cs ix.fields 0).map (·.2))) := by
    show ((colRanges cs ix.fields 0).map (·.2)).length = ix.fields.length
    rw [List.length_map, colRanges_length]
  unfold scan
  dsimp only
  by_cases hc : (!rangeEmpty ix.fields (colRanges cs ix.fields 0) &&
      rangeExact ix.fields (colRanges cs ix.fields 0)) = true
  · rw [if_pos hc]
    simp only [Bool.and_eq_true, Bool.not_eq_true'] at hc
    obtain ⟨he, hx⟩ := hc
    have hlook' := hlook
    unfold lowKey at hlook'
    rw [hlook']
    exact exact_slow hcs ok he hx
  · rw [if_neg hc]
    clear hc
    obtain ⟨q, hq, a1, a2, a3, _⟩ := hat
    unfold lowKey at hq a2 a3
    rw [hq]
    simp only [Option.map_some]
    congr 1
    have hsplit : (Tree.rows n t).filter (fun r => cs.all (fun c => c.on ix r))
        = ((Tree.rows n t).drop (q.before + q.off)).filter
            (fun r => cs.all (fun c => c.on ix r)) := by
      conv => lhs; rw [← List.take_append_drop (q.before + q.off) (Tree.rows n t)]
      rw [List.filter_append]
      have : ((Tree.rows n t).take (q.before + q.off)).filter
          (fun r => cs.all (fun c => c.on ix r)) = [] := by
        rw [List.filter_eq_nil_iff]
        intro r hr hc
        have hpos := a2 r hr
        have := (bounds_of_all ix.fields m 0 r
          ((hall r (List.mem_of_mem_take hr)).2 hc)).1
        simp only [Idx.cmpKey, hm] at hpos
        omega
      rw [this, List.nil_append]
    rw [hsplit]
    unfold forwardFrom
    refine takeWhile_filter (hsrt.sublist (List.drop_sublist ..)) ?_ ?_ ?_
    · intro a ha b hb hab hQ
      simp only [decide_eq_true_eq] at hQ ⊢
      exact (Idx.cmpKey_anti hkh.ok (hfull a (List.mem_of_mem_drop ha))
        (hfull b (List.mem_of_mem_drop hb)) (Int.le_of_lt hab)).1 hQ
    · intro a ha hP
      simp only [decide_eq_true_eq]
      have := (bounds_of_all ix.fields m 0 a ((hall a (List.mem_of_mem_drop ha)).2 hP)).2
      simp only [Idx.cmpKey, hm]
      exact this
    · intro a ha hQ
      simp only [decide_eq_true_eq] at hQ
      rw [← hall a (List.mem_of_mem_drop ha)]
      have hlow := a3 a ha
      simp only [Idx.cmpKey, hm] at hQ hlow
      constructor
      · intro hv
        exact all_of_bounds ix.fields m 0 a (hfull a (List.mem_of_mem_drop ha)) (Nat.zero_le _)
          hkc (fun i hi hi' => prefixExact_spec cs 0 i hi hi') hlow hQ hv
      · exact valid_of_all ix.fields 0 a

/-- Where a backward scan starts: the rows not above the bound. -/
theorem backFrom_spec {ix : Idx} {k : SKey} (hk : ix.RowKey k) {rows : List Row} {q : Pos}
    (ha : AtKey ix k rows q) (hfull : ∀ r ∈ rows, ix.Full r)
    (hsrt : rows.Pairwise fun a b => ix.cmp a b < 0) :
    (∀ r ∈ rows.take (backFrom ix k q), 0 ≤ ix.cmpKey k r) ∧
    (∀ r ∈ rows.drop (backFrom ix k q), ix.cmpKey k r < 0) := by
  obtain ⟨a1, a2, a3, a4⟩ := ha
  unfold backFrom
  generalize hm : q.before + q.off = m at *
  rcases a4 with h | ⟨h, h'⟩
  · rw [h]
    cases hr : rows[m]? with
    | none =>
      dsimp only
      have : rows.length ≤ m := List.getElem?_eq_none_iff.1 hr
      refine ⟨fun r hr => ?_, fun r hr => ?_⟩
      · exact Int.le_of_lt (a2 r hr)
      · rw [List.drop_eq_nil_of_le (by omega)] at hr; cases hr
    | some r0 =>
      dsimp only
      obtain ⟨hlt, he⟩ := List.getElem?_eq_some_iff.1 hr
      have hd : rows.drop m = r0 :: rows.drop (m + 1) := by
        rw [← he]; exact List.drop_eq_getElem_cons hlt
      have hsd := hsrt.sublist (List.drop_sublist m rows)
      rw [hd, List.pairwise_cons] at hsd
      have h0 := a3 r0 (by rw [hd]; exact List.mem_cons_self ..)
      have hafter : ∀ r ∈ rows.drop (m + 1), ix.cmpKey k r < 0 := by
        intro r hr'
        have hle := a3 r (by rw [hd]; exact List.mem_cons_of_mem _ hr')
        have hmem : r ∈ rows := List.mem_of_mem_drop hr'
        by_cases hz : ix.cmpKey k r = 0
        · have := Idx.cmpKey_strict hk (hfull r0 (List.mem_of_getElem? hr)) (hfull r hmem)
            (hsd.1 r hr') (by omega)
          omega
        · omega
      by_cases hc : ix.cmpKey k r0 < 0
      · rw [if_pos hc, Nat.add_zero]
        refine ⟨fun r hr => Int.le_of_lt (a2 r hr), fun r hr' => ?_⟩
        rw [hd] at hr'
        rcases List.mem_cons.1 hr' with rfl | h'
        · exact hc
        · exact hafter r h'
      · rw [if_neg hc]
        refine ⟨fun r hr' => ?_, hafter⟩
        rw [List.take_succ_eq_append_getElem hlt, he] at hr'
        rcases List.mem_append.1 hr' with h1 | h1
        · exact Int.le_of_lt (a2 r h1)
        · rw [List.mem_singleton.1 h1]; omega
  · rw [h]
    dsimp only
    rw [Nat.add_zero]
    exact ⟨fun r hr => Int.le_of_lt (a2 r hr), h'⟩

/-- A backward scan whose search finds the place of the upper end. -/
theorem scanBack_of {ix : Idx} {fp : Bool} {cs : List SCond} (hcs : CondsOk ix cs) {n : Nat}
    {t : Tree n} (ok : TreeWf ix n t)
    (hlook : lookup ix fp (lowKey ix cs) n t = lookup ix false (lowKey ix cs) n t)
    (hat : ∃ q, descend ix fp (highKey ix cs) n t = some q ∧
      AtKey ix (highKey ix cs) (Tree.rows n t) q) :
    scanBack ix fp cs n t
      = some ((Tree.rows n t).filter fun r => cs.all (fun c => c.on ix r)).reverse := by
  obtain ⟨m, hm⟩ := ix.cols_eq_take
  have hkc := hcs.keyCols hm
  have hfull : ∀ r ∈ Tree.rows n t, ix.Full r := fun r hr =>
    (TreeOk.between n _ _ t ok r hr).1
  have hsrt := TreeOk.sorted n _ _ t ok
  have hall : ∀ r ∈ Tree.rows n t,
      (AllOk ix.fields (colRanges cs ix.fields 0) r ↔ cs.all (fun c => c.on ix r) = true) :=
    fun r hr => allOk_on hcs (hfull r hr)
  have hkl : ix.RowKey (.bound ((colRanges cs ix.fields 0).map (·.1))) := by
    show ((colRanges cs ix.fields 0).map (·.1)).length = ix.fields.length
    rw [List.length_map, colRanges_length]
  have hkh : ix.RowKey (.bound ((colRanges cs ix.fields 0).map (·.2))) := by
    show ((colRanges cs ix.fields 0).map (·.2)).length = ix.fields.length
    rw [List.length_map, colRanges_length]
  unfold scanBack
  dsimp only
  by_cases hc : (!rangeEmpty ix.fields (colRanges cs ix.fields 0) &&
      rangeExact ix.fields (colRanges cs ix.fields 0)) = true
  · rw [if_pos hc]
    simp only [Bool.and_eq_true, Bool.not_eq_true'] at hc
    obtain ⟨he, hx⟩ := hc
    have hlook' := hlook
    unfold lowKey at hlook'
    rw [hlook', exact_slow hcs ok he hx]
    congr 1
    -- one row at most
    have hone : ∀ l : List Row, l.Pairwise (fun a b => ix.cmp a b < 0) →
        (∀ r ∈ l, ix.Full r ∧
          ix.cmpKey (.bound ((colRanges cs ix.fields 0).map (·.1))) r = 0) → l = l.reverse := by
      intro l hp hz
      match l with
      | [] => rfl
      | [_] => rfl
      | a :: b :: l =>
        rw [List.pairwise_cons] at hp
        have h1 := hz a (List.mem_cons_self ..)
        have h2 := hz b (List.mem_cons_of_mem _ (List.mem_cons_self ..))
        have := Idx.cmpKey_strict hkl h1.1 h2.1 (hp.1 b (List.mem_cons_self ..)) (by omega)
        omega
    refine hone _ (hsrt.sublist (List.filter_sublist ..)) ?_
    intro r hr
    obtain ⟨hr1, hr2⟩ := List.mem_filter.1 hr
    refine ⟨hfull r hr1, ?_⟩
    have := (hall r hr1).2 hr2
    rw [exact_iff ix.fields m 0 r (hfull r hr1) hkc hx] at this
    simp only [Idx.cmpKey, hm]
    exact this
  · rw [if_neg hc]
    clear hc
    obtain ⟨q, hq, ha⟩ := hat
    unfold highKey at hq ha
    rw [hq]
    simp only [Option.map_some]
    congr 1
    obtain ⟨b1, b2⟩ := backFrom_spec hkh ha hfull hsrt
    generalize backFrom ix (.bound ((colRanges cs ix.fields 0).map (·.2))) q = w at b1 b2
    have hsplit : (Tree.rows n t).filter (fun r => cs.all (fun c => c.on ix r))
        = ((Tree.rows n t).take w).filter (fun r => cs.all (fun c => c.on ix r)) := by
      conv => lhs; rw [← List.take_append_drop w (Tree.rows n t)]
      rw [List.filter_append]
      have : ((Tree.rows n t).drop w).filter
          (fun r => cs.all (fun c => c.on ix r)) = [] := by
        rw [List.filter_eq_nil_iff]
        intro r hr hc
        have hneg := b2 r hr
        have := (bounds_of_all ix.fields m 0 r
          ((hall r (List.mem_of_mem_drop hr)).2 hc)).2
        simp only [Idx.cmpKey, hm] at hneg
        omega
      rw [this, List.append_nil]
    rw [hsplit, ← List.filter_reverse]
    unfold backwardFrom
    have hmem : ∀ a ∈ ((Tree.rows n t).take w).reverse, a ∈ (Tree.rows n t).take w :=
      fun a ha => List.mem_reverse.1 ha
    refine takeWhile_filter (R := fun a b => ix.cmp b a < 0) ?_ ?_ ?_ ?_
    · rw [List.pairwise_reverse]
      exact hsrt.sublist (List.take_sublist ..)
    · intro a ha b hb hab hQ
      simp only [decide_eq_true_eq] at hQ ⊢
      have h1 := hfull a (List.mem_of_mem_take (hmem a ha))
      have h2 := hfull b (List.mem_of_mem_take (hmem b hb))
      refine Int.not_lt.1 fun hlt => ?_
      have := (Idx.cmpKey_anti hkl.ok h2 h1 (Int.le_of_lt hab)).2 hlt
      omega
    · intro a ha hP
      simp only [decide_eq_true_eq]
      have := (bounds_of_all ix.fields m 0 a
        ((hall a (List.mem_of_mem_take (hmem a ha))).2 hP)).1
      simp only [Idx.cmpKey, hm]
      exact this
    · intro a ha hQ
      simp only [decide_eq_true_eq] at hQ
      rw [← hall a (List.mem_of_mem_take (hmem a ha))]
      have hhigh := b1 a (hmem a ha)
      simp only [Idx.cmpKey, hm] at hQ hhigh
      constructor
      · intro hv
        exact all_of_bounds ix.fields m 0 a (hfull a (List.mem_of_mem_take (hmem a ha)))
          (Nat.zero_le _) hkc (fun i hi hi' => prefixExact_spec cs 0 i hi hi') hQ hhigh hv
      · exact valid_of_all ix.fields 0 a

/-- A scan with the regular search. -/
theorem scan_slow {ix : Idx} {cs : List SCond} (hcs : CondsOk ix cs) {n : Nat} {t : Tree n}
    (ok : TreeWf ix n t) :
    scan ix false cs n t
      = some ((Tree.rows n t).filter fun r => cs.all (fun c => c.on ix r)) :=
  scan_of hcs ok rfl (descend_at (lowKey_row ix cs) n none none t ok (fun h hh => by cases hh))

/-- A backward scan with the regular search. -/
theorem scanBack_slow {ix : Idx} {cs : List SCond} (hcs : CondsOk ix cs) {n : Nat} {t : Tree n}
    (ok : TreeWf ix n t) :
    scanBack ix false cs n t
      = some ((Tree.rows n t).filter fun r => cs.all (fun c => c.on ix r)).reverse :=
  scanBack_of hcs ok rfl (descend_at (highKey_row ix cs) n none none t ok (fun h hh => by cases hh))

/-! ## With the fast path -/

/-- The fast path is not used for the key, or treats it as the comparators do. -/
def Idx.agrees (ix : Idx) (k : SKey) : Bool := (ix.fastMeta k).isNone || ix.safe k

theorem descend_off {ix : Idx} {k : SKey} (h : ix.fastMeta k = none) :
    ∀ (n : Nat) (t : Tree n), descend ix true k n t = descend ix false k n t := by
  intro n
  induction n with
  | zero =>
    intro p
    simp only [descend, findItem, h, if_true, Bool.false_eq_true, if_false]
  | succ n ih =>
    intro p
    simp only [descend, findDownlink, h, if_true, Bool.false_eq_true, if_false, ih]

theorem descend_agrees {ix : Idx} (hix : ix.Wf) {k : SKey} (hk : ix.RowKey k)
    (ha : ix.agrees k = true) {n : Nat} {t : Tree n} (ok : TreeWf ix n t) (hn : TreeNoNan n t) :
    descend ix true k n t = descend ix false k n t := by
  unfold Idx.agrees at ha
  rw [Bool.or_eq_true] at ha
  rcases ha with h | h
  · exact descend_off (Option.isNone_iff_eq_none.1 h) n t
  · exact descend_fast hix hk h n none none t ok hn

theorem lookup_agrees {ix : Idx} (hix : ix.Wf) {k : SKey} (hk : ix.RowKey k)
    (ha : ix.agrees k = true) {n : Nat} {t : Tree n} (ok : TreeWf ix n t) (hn : TreeNoNan n t) :
    lookup ix true k n t = lookup ix false k n t := by
  unfold lookup
  rw [descend_agrees hix hk ha ok hn]

/-! ## Upper bounds without their end -/

/-- The upper bound with its end. -/
def VB.close (b : VB) : VB :=
  if !b.unb && !b.isnull && b.upper && !b.lower then
    { b with incl := true }
  else b

/-- An upper bound without its end only in the last column compared. -/
def lastOpen : List Field → List VB → Bool
  | f :: fs, b :: bs =>
    if f.ignored then lastOpen fs bs
    else if b.unb then true
    else if b.close = b then lastOpen fs bs
    else fs.all (·.ignored)
  | _, _ => true

theorem cmpBnd_ignored (fin : Int) : ∀ (fs : List Field) (bs : List VB) (r : Row),
    fs.all (·.ignored) = true → cmpBnd fin fs bs r = fin := by
  intro fs
  induction fs with
  | nil => intro bs r _; simp [cmpBnd]
  | cons f fs ih =>
    intro bs r h
    rw [List.all_cons, Bool.and_eq_true] at h
    cases bs with
    | nil => simp [cmpBnd]
    | cons b bs =>
      cases r with
      | nil => simp [cmpBnd]
      | cons x r => simp only [cmpBnd, h.1, if_true]; exact ih bs r h.2

theorem cmpBnd_close : ∀ (fs : List Field) (bs : List VB) (r : Row), lastOpen fs bs = true →
    cmpBnd 0 fs bs r = cmpBnd 0 fs (bs.map VB.close) r ∨
      (cmpBnd 0 fs (bs.map VB.close) r = 0 ∧ cmpBnd 0 fs bs r < 0) := by
  intro fs
  induction fs with
  | nil => intro bs r _; left; simp [cmpBnd]
  | cons f fs ih =>
    intro bs r h
    cases bs with
    | nil => left; simp [cmpBnd]
    | cons b bs =>
      cases r with
      | nil => left; simp [cmpBnd]
      | cons x r =>
        simp only [lastOpen] at h
        simp only [List.map_cons, cmpBnd]
        by_cases hi : f.ignored = true
        · simp only [hi, if_true] at h ⊢
          exact ih bs r h
        · simp only [hi, Bool.false_eq_true, if_false] at h ⊢
          by_cases hu : b.unb = true
          · left
            have : b.close = b := by unfold VB.close; simp [hu]
            rw [this]
            simp only [hu, if_true]
          · simp only [hu, Bool.false_eq_true, if_false] at h ⊢
            by_cases hcl : b.close = b
            · rw [if_pos hcl] at h
              rw [hcl]
              simp only [hu, Bool.false_eq_true, if_false]
              by_cases hc : cmpVal f b x ≠ 0
              · left; rw [if_pos hc, if_pos hc]
              · rw [if_neg hc, if_neg hc]; exact ih bs r h
            · rw [if_neg hcl] at h
              -- an upper bound without its end
              have hcond : (!b.unb && !b.isnull && b.upper && !b.lower) = true := by
                cases hh : (!b.unb && !b.isnull && b.upper && !b.lower) with
                | true => rfl
                | false =>
                  exfalso
                  apply hcl
                  unfold VB.close
                  rw [hh]
                  rfl
              have hclose : b.close = { b with incl := true } := by
                unfold VB.close
                rw [if_pos hcond]
              simp only [Bool.and_eq_true, Bool.not_eq_true'] at hcond
              obtain ⟨⟨⟨_, hnull⟩, hup⟩, hlow⟩ := hcond
              have hincl : b.incl = false := by
                cases hb : b.incl with
                | false => rfl
                | true =>
                  exfalso
                  apply hcl
                  rw [hclose]
                  cases b
                  simp only [] at hb ⊢
                  rw [hb]
              rw [hclose]
              simp only [hu, Bool.false_eq_true, if_false]
              rw [cmpBnd_ignored 0 fs bs r h, cmpBnd_ignored 0 fs (bs.map VB.close) r h]
              cases x with
              | none =>
                left
                simp only [cmpVal, hnull, Bool.false_eq_true, if_false]
              | some v =>
                simp only [cmpVal, hnull, Bool.not_false, if_true, hincl, Bool.not_true,
                  Bool.and_false, Bool.and_true, Bool.false_eq_true, if_false, beq_iff_eq]
                generalize (if (!f.asc) = true then -pgCmp b.value v else pgCmp b.value v) = c
                by_cases hc : c = 0
                · right
                  subst hc
                  simp [cmpIncl, hlow, hup, hincl]
                · left
                  simp [hc]

theorem near_close {ix : Idx} {bs : List VB} (h : lastOpen ix.cols bs = true) :
    ix.Near (.bound bs) (.bound (bs.map VB.close)) := by
  intro r _
  simp only [Idx.cmpKey]
  rcases cmpBnd_close ix.cols bs r h with h1 | ⟨h1, h2⟩
  · rw [h1]; exact ⟨id, id⟩
  · rw [h1]
    exact ⟨fun h => absurd h (by omega), fun h => absurd h (by omega)⟩

theorem close_ty (b : VB) : b.close.ty = b.ty ∧ b.close.unb = b.unb ∧ b.close.lower = b.lower ∧
    b.close.isnull = b.isnull ∧ b.close.value = b.value := by
  unfold VB.close
  split <;> exact ⟨rfl, rfl, rfl, rfl, rfl⟩

theorem boundCols_close : ∀ (fs : List Field) (bs : List VB),
    boundCols fs (bs.map VB.close) = boundCols fs bs := by
  intro fs
  induction fs with
  | nil => intro bs; simp [boundCols]
  | cons f fs ih =>
    intro bs
    cases bs with
    | nil => rfl
    | cons b bs =>
      obtain ⟨h1, h2, h3, h4, h5⟩ := close_ty b
      simp only [List.map_cons, boundCols, h1, h2, h3, h4, h5, ih]

theorem fastMeta_close {ix : Idx} {bs : List VB} (hl : bs.length = ix.fields.length) :
    ix.fastMeta (.bound (bs.map VB.close)) = ix.fastMeta (.bound bs) := by
  have hg : ∀ fs : List Field, fs.length ≤ bs.length →
      getKeys fs (.bound (bs.map VB.close)) = getKeys fs (.bound bs) := by
    intro fs hfs
    simp only [getKeys, boundCols_close, List.length_map]
    rw [show fs.length - bs.length = 0 by omega]
    congr 1
    funext cs
    simp only [List.replicate_zero, List.append_nil]
    generalize (List.take fs.length (List.map VB.close bs)).getLast? = o
    generalize (List.take fs.length bs).getLast? = o'
    cases o <;> cases o' <;> rfl
  unfold Idx.fastMeta
  have hn : ix.numKeys (.bound (bs.map VB.close)) = ix.numKeys (.bound bs) := rfl
  dsimp only
  rw [hn, hg _ (by rw [List.length_take]; omega)]
  rfl

/-- The fast path agrees with the comparators on a bound, or on the bound with its end. -/
def Idx.agreesUp (ix : Idx) (bs : List VB) : Bool :=
  ix.agrees (.bound bs) || (lastOpen ix.cols bs && ix.safe (.bound (bs.map VB.close)))

theorem descend_up {ix : Idx} (hix : ix.Wf) {bs : List VB} (hl : bs.length = ix.fields.length)
    (ha : ix.agreesUp bs = true) {n : Nat} {t : Tree n} (ok : TreeWf ix n t)
    (hn : TreeNoNan n t) :
    ∃ q, descend ix true (.bound bs) n t = some q ∧ AtKey ix (.bound bs) (Tree.rows n t) q := by
  have hk : ix.RowKey (.bound bs) := hl
  unfold Idx.agreesUp at ha
  rw [Bool.or_eq_true] at ha
  rcases ha with ha | ha
  · rw [descend_agrees hix hk ha ok hn]
    exact descend_at hk n none none t ok (fun h hh => by cases hh)
  · rw [Bool.and_eq_true] at ha
    have hkk : ix.RowKey (.bound (bs.map VB.close)) := by
      show (bs.map VB.close).length = ix.fields.length
      rw [List.length_map]; exact hl
    have hnear := near_close ha.1
    have hmeta := fastMeta_close hl
    refine descend_near hk TreeNoNan (fun n p h it hit => h.2 it hit) ?_ ?_ n none none t hn ok
      (fun h hh => by cases hh)
    · intro p hnp okp hg
      unfold findItem
      simp only [if_true, hg, Bool.false_eq_true, if_false]
      cases hm : ix.fastMeta (.bound bs) with
      | none => exact ⟨_, hk, Idx.Near.self, rfl⟩
      | some m =>
        dsimp only
        cases hc : fastChunk m p with
        | none => exact ⟨_, hk, Idx.Near.self, rfl⟩
        | some c =>
          dsimp only
          rw [← hmeta] at hm
          obtain ⟨h1, _⟩ := fastChunk_eq hix okp hnp hkk.ok ha.2 hm hc
          refine ⟨_, hkk, hnear, ?_⟩
          unfold leafLoc
          rw [h1]
    · intro n p hnp okp hg
      unfold findDownlink
      simp only [if_true]
      cases hm : ix.fastMeta (.bound bs) with
      | none => exact ⟨_, hk, Idx.Near.self, hg, rfl⟩
      | some m =>
        dsimp only
        cases hd : fastDownlink m p with
        | none => exact ⟨_, hk, Idx.Near.self, hg, rfl⟩
        | some l =>
          dsimp only
          rw [← hmeta] at hm
          have he := fastDownlink_eq hix okp hnp.1 hkk.ok ha.2 hm hd
          refine ⟨_, hkk, hnear, ?_, he.symm⟩
          cases hgr : goesRight ix (.bound (bs.map VB.close)) p with
          | false => rfl
          | true =>
            exfalso
            unfold slowDownlink at he
            rw [hgr] at he
            simp at he

theorem scan_agrees {ix : Idx} (hix : ix.Wf) {cs : List SCond} (hcs : CondsOk ix cs)
    (ha : ix.agrees (lowKey ix cs) = true)
    {n : Nat} {t : Tree n} (ok : TreeWf ix n t) (hn : TreeNoNan n t) :
    scan ix true cs n t
      = some ((Tree.rows n t).filter fun r => cs.all (fun c => c.on ix r)) := by
  refine scan_of hcs ok (lookup_agrees hix (lowKey_row ix cs) ha ok hn) ?_
  rw [descend_agrees hix (lowKey_row ix cs) ha ok hn]
  exact descend_at (lowKey_row ix cs) n none none t ok (fun h hh => by cases hh)

theorem scanBack_agrees {ix : Idx} (hix : ix.Wf) {cs : List SCond} (hcs : CondsOk ix cs)
    (hl : ix.agrees (lowKey ix cs) = true)
    (hh : ix.agreesUp ((colRanges cs ix.fields 0).map (·.2)) = true)
    {n : Nat} {t : Tree n} (ok : TreeWf ix n t) (hn : TreeNoNan n t) :
    scanBack ix true cs n t
      = some ((Tree.rows n t).filter fun r => cs.all (fun c => c.on ix r)).reverse :=
  scanBack_of hcs ok (lookup_agrees hix (lowKey_row ix cs) hl ok hn)
    (descend_up hix (highKey_row ix cs) hh ok hn)

end Verif.Fastpath
