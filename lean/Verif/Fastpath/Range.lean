import Verif.Fastpath.Tree

/-!
# Ranges: the bounds of a scan say what its conditions say
-/

namespace Verif.Fastpath

/-! ## Bounds as places among the values -/

/-- The value of a bound, NULL included. -/
def VB.pt (b : VB) : Option Val := if b.isnull then none else some b.value

theorem cmpVal_pt (f : Field) (b : VB) (x : Option Val) :
    cmpVal f b x = if cmpCol f b.pt x = 0 ∧ b.incl = false then cmpIncl b else cmpCol f b.pt x := by
  cases hn : b.isnull with
  | false =>
    have hp : b.pt = some b.value := by simp [VB.pt, hn]
    rw [hp]
    cases x with
    | some v => exact cmpVal_val hn
    | none =>
      have hne : ¬ cmpCol f (some b.value) none = 0 := fun h => by
        have := cmpCol_zero.1 h; cases this
      rw [if_neg (fun h => hne h.1)]
      simp [cmpVal, cmpCol, hn]
  | true =>
    have hp : b.pt = none := by simp [VB.pt, hn]
    rw [hp]
    cases x with
    | some v =>
      have hne : ¬ cmpCol f none (some v) = 0 := fun h => by
        have := cmpCol_zero.1 h; cases this
      rw [if_neg (fun h => hne h.1)]
      simp [cmpVal, cmpCol, hn]
    | none =>
      cases hi : b.incl <;> simp [cmpVal, cmpCol, hn, hi]

/-- A lower bound. -/
def LowB (b : VB) : Prop := b.lower = true ∧ b.upper = false

/-- An upper bound. -/
def HighB (b : VB) : Prop := b.lower = false ∧ b.upper = true

/-- The value is not below the lower bound. -/
def lowOk (f : Field) (b : VB) (x : Option Val) : Prop := b.unb = true ∨ cmpVal f b x ≤ 0

/-- The value is not above the upper bound. -/
def highOk (f : Field) (b : VB) (x : Option Val) : Prop := b.unb = true ∨ 0 ≤ cmpVal f b x

/-- The value is in the range. -/
def colOk (f : Field) (lh : VB × VB) (x : Option Val) : Prop := lowOk f lh.1 x ∧ highOk f lh.2 x

theorem LowB.val {f : Field} {b : VB} (h : LowB b) (x : Option Val) :
    cmpVal f b x = if cmpCol f b.pt x = 0 ∧ b.incl = false then 1 else cmpCol f b.pt x := by
  rw [cmpVal_pt]
  by_cases h0 : cmpCol f b.pt x = 0 ∧ b.incl = false
  · rw [if_pos h0, if_pos h0]
    simp [cmpIncl, h.1, h0.2]
  · rw [if_neg h0, if_neg h0]

theorem HighB.val {f : Field} {b : VB} (h : HighB b) (x : Option Val) :
    cmpVal f b x = if cmpCol f b.pt x = 0 ∧ b.incl = false then -1 else cmpCol f b.pt x := by
  rw [cmpVal_pt]
  by_cases h0 : cmpCol f b.pt x = 0 ∧ b.incl = false
  · rw [if_pos h0, if_pos h0]
    simp [cmpIncl, h.1, h.2, h0.2]
  · rw [if_neg h0, if_neg h0]

theorem LowB.ok_iff {f : Field} {b : VB} (h : LowB b) (hu : b.unb = false) {x : Option Val} :
    lowOk f b x ↔ cmpCol f b.pt x < 0 ∨ (b.pt = x ∧ b.incl = true) := by
  unfold lowOk
  rw [h.val, hu]
  simp only [Bool.false_eq_true, false_or]
  rw [← cmpCol_zero (f := f)]
  by_cases h0 : cmpCol f b.pt x = 0
  · cases hi : b.incl <;> simp [h0]
  · rw [if_neg (fun h => h0 h.1)]
    constructor
    · intro hle; left; omega
    · rintro (h1 | ⟨h1, _⟩)
      · omega
      · exact absurd h1 h0

theorem HighB.ok_iff {f : Field} {b : VB} (h : HighB b) (hu : b.unb = false) {x : Option Val} :
    highOk f b x ↔ cmpCol f x b.pt < 0 ∨ (b.pt = x ∧ b.incl = true) := by
  unfold highOk
  rw [h.val, hu]
  simp only [Bool.false_eq_true, false_or]
  rw [← cmpCol_zero (f := f)]
  have hn := cmpCol_neg f b.pt x
  by_cases h0 : cmpCol f b.pt x = 0
  · cases hi : b.incl
    · rw [if_pos ⟨h0, rfl⟩]; simp; omega
    · simp [h0]
  · rw [if_neg (fun h => h0 h.1)]
    constructor
    · intro hle; left; omega
    · rintro (h1 | ⟨h1, _⟩)
      · omega
      · exact absurd h1 h0

theorem cmpBounds_pt {f : Field} {a b : VB} (ha : a.unb = false) (hb : b.unb = false) :
    (cmpBounds f a b).1 = if cmpCol f a.pt b.pt = 0 then cmpIncl a - cmpIncl b
      else cmpCol f a.pt b.pt := by
  unfold cmpBounds VB.pt
  cases hna : a.isnull <;> cases hnb : b.isnull
  · simp only [ha, hb, Bool.not_false, Bool.and_self, if_true, cmpCol, Bool.false_eq_true, if_false]
    generalize (if (!f.asc) = true then -pgCmp a.value b.value else pgCmp a.value b.value) = c
    by_cases h0 : c = 0
    · simp [h0]
    · simp [h0]
  · simp only [ha, hb, Bool.not_false, Bool.not_true, Bool.and_false, Bool.and_true,
      Bool.false_eq_true, if_false, Bool.or_self, cmpCol, if_true, Bool.false_and]
    cases f.nullfirst <;> simp
  · simp only [ha, hb, Bool.not_false, Bool.not_true, Bool.and_false, Bool.and_true,
      Bool.false_eq_true, if_false, Bool.or_self, cmpCol, if_true, Bool.false_and]
    cases f.nullfirst <;> simp
  · simp [ha, hb, cmpCol]

theorem cmpBounds_unb_left {f : Field} {a b : VB} (ha : a.unb = true) (hb : b.unb = false) :
    (cmpBounds f a b).1 = if a.lower then -1 else 1 := by
  unfold cmpBounds
  simp [ha, hb]

theorem cmpBounds_unb_right {f : Field} {a b : VB} (ha : a.unb = false) (hb : b.unb = true) :
    (cmpBounds f a b).1 = if b.lower then 1 else -1 := by
  unfold cmpBounds
  simp [ha, hb]

theorem cmpIncl_low {b : VB} (h : LowB b) : cmpIncl b = if b.incl then -1 else 1 := by
  simp [cmpIncl, h.1]

theorem cmpIncl_high {b : VB} (h : HighB b) : cmpIncl b = if b.incl then 1 else -1 := by
  simp [cmpIncl, h.1, h.2]

/-- The higher of two lower bounds. -/
theorem low_ge {f : Field} {a b : VB} (ha : LowB a) (hb : LowB b)
    (h : 0 ≤ (cmpBounds f a b).1) {x : Option Val} (hx : lowOk f a x) : lowOk f b x := by
  cases hub : b.unb with
  | true => exact Or.inl hub
  | false =>
    cases hua : a.unb with
    | true => rw [cmpBounds_unb_left hua hub, ha.1] at h; simp at h
    | false =>
      rw [cmpBounds_pt hua hub] at h
      rw [ha.ok_iff hua] at hx
      rw [hb.ok_iff hub]
      by_cases h0 : cmpCol f a.pt b.pt = 0
      · rw [if_pos h0, cmpIncl_low ha, cmpIncl_low hb] at h
        have := cmpCol_zero.1 h0
        rw [← this]
        rcases hx with hx | ⟨hx, hi⟩
        · exact Or.inl hx
        · right
          refine ⟨hx, ?_⟩
          rw [hi] at h
          cases hbi : b.incl
          · rw [hbi] at h; simp at h
          · rfl
      · rw [if_neg h0] at h
        have hn := cmpCol_neg f a.pt b.pt
        have hlt : cmpCol f b.pt a.pt < 0 := by omega
        left
        rcases hx with hx | ⟨hx, _⟩
        · exact cmpCol_trans hlt hx
        · rw [← hx]; exact hlt

theorem low_lt {f : Field} {a b : VB} (ha : LowB a) (hb : LowB b)
    (h : (cmpBounds f a b).1 < 0) {x : Option Val} (hx : lowOk f b x) : lowOk f a x := by
  cases hua : a.unb with
  | true => exact Or.inl hua
  | false =>
    cases hub : b.unb with
    | true => rw [cmpBounds_unb_right hua hub, hb.1] at h; simp at h
    | false =>
      rw [cmpBounds_pt hua hub] at h
      rw [hb.ok_iff hub] at hx
      rw [ha.ok_iff hua]
      by_cases h0 : cmpCol f a.pt b.pt = 0
      · rw [if_pos h0, cmpIncl_low ha, cmpIncl_low hb] at h
        have := cmpCol_zero.1 h0
        rw [this]
        rcases hx with hx | ⟨hx, hi⟩
        · exact Or.inl hx
        · rw [hi] at h
          cases hai : a.incl <;> rw [hai] at h <;> simp at h
      · rw [if_neg h0] at h
        left
        rcases hx with hx | ⟨hx, _⟩
        · exact cmpCol_trans h hx
        · rw [← hx]; exact h

/-- The lower of two upper bounds. -/
theorem high_le {f : Field} {a b : VB} (ha : HighB a) (hb : HighB b)
    (h : (cmpBounds f a b).1 ≤ 0) {x : Option Val} (hx : highOk f a x) : highOk f b x := by
  cases hub : b.unb with
  | true => exact Or.inl hub
  | false =>
    cases hua : a.unb with
    | true => rw [cmpBounds_unb_left hua hub, ha.1] at h; simp at h
    | false =>
      rw [cmpBounds_pt hua hub] at h
      rw [ha.ok_iff hua] at hx
      rw [hb.ok_iff hub]
      by_cases h0 : cmpCol f a.pt b.pt = 0
      · rw [if_pos h0, cmpIncl_high ha, cmpIncl_high hb] at h
        have := cmpCol_zero.1 h0
        rw [← this]
        rcases hx with hx | ⟨hx, hi⟩
        · exact Or.inl hx
        · right
          refine ⟨hx, ?_⟩
          rw [hi] at h
          cases hbi : b.incl
          · rw [hbi] at h; simp at h
          · rfl
      · rw [if_neg h0] at h
        have hlt : cmpCol f a.pt b.pt < 0 := by omega
        left
        rcases hx with hx | ⟨hx, _⟩
        · exact cmpCol_trans hx hlt
        · rw [← hx]; exact hlt

theorem high_gt {f : Field} {a b : VB} (ha : HighB a) (hb : HighB b)
    (h : 0 < (cmpBounds f a b).1) {x : Option Val} (hx : highOk f b x) : highOk f a x := by
  cases hua : a.unb with
  | true => exact Or.inl hua
  | false =>
    cases hub : b.unb with
    | true => rw [cmpBounds_unb_right hua hub, hb.1] at h; simp at h
    | false =>
      rw [cmpBounds_pt hua hub] at h
      rw [hb.ok_iff hub] at hx
      rw [ha.ok_iff hua]
      by_cases h0 : cmpCol f a.pt b.pt = 0
      · rw [if_pos h0, cmpIncl_high ha, cmpIncl_high hb] at h
        have := cmpCol_zero.1 h0
        rw [this]
        rcases hx with hx | ⟨hx, hi⟩
        · exact Or.inl hx
        · rw [hi] at h
          cases hai : a.incl <;> rw [hai] at h <;> simp at h
      · rw [if_neg h0] at h
        have hn := cmpCol_neg f a.pt b.pt
        have hlt : cmpCol f b.pt a.pt < 0 := by omega
        left
        rcases hx with hx | ⟨hx, _⟩
        · exact cmpCol_trans hx hlt
        · rw [← hx]; exact hlt

/-! ## One condition -/

theorem condBounds_low (f : Field) (c : SCond) : LowB (condBounds f c).1 := by
  unfold condBounds LowB
  cases c.op <;> cases f.nullfirst <;> exact ⟨rfl, rfl⟩

theorem condBounds_high (f : Field) (c : SCond) : HighB (condBounds f c).2 := by
  unfold condBounds HighB
  cases c.op <;> cases f.nullfirst <;> exact ⟨rfl, rfl⟩

theorem cmpCol_some (f : Field) (a b : Val) :
    cmpCol f (some a) (some b) = if f.asc then pgCmp a b else - pgCmp a b := by
  cases h : f.asc <;> simp [cmpCol, h]

/-- The bounds of a condition say what it says. -/
theorem condBounds_ok (f : Field) (c : SCond) (x : Option Val) :
    colOk f (condBounds f c) x ↔ c.holds f x = true := by
  have hl := condBounds_low f c
  have hh := condBounds_high f c
  unfold colOk
  have unbL : ∀ b : VB, b = VB.minusInf → (lowOk f b x ↔ True) := by
    intro b hb; subst hb; simp [lowOk, VB.minusInf]
  have unbH : ∀ b : VB, b = VB.plusInf → (highOk f b x ↔ True) := by
    intro b hb; subst hb; simp [highOk, VB.plusInf]
  cases hop : c.op <;> cases hnf : f.nullfirst <;> cases x <;>
    simp only [condBounds, hop, hnf, if_true, Bool.false_eq_true, if_false] at hl hh ⊢ <;>
    first
      | rw [unbL _ rfl, unbH _ rfl]
      | rw [unbL _ rfl, HighB.ok_iff hh rfl]
      | rw [LowB.ok_iff hl rfl, unbH _ rfl]
      | rw [LowB.ok_iff hl rfl, HighB.ok_iff hh rfl]
  all_goals simp only [SCond.holds, hop, VB.pt, cmpCol_some, cmpCol, hnf]
  all_goals first
    | (simp; done)
    | skip
  all_goals
    rename_i v
    have hz : ∀ w : Val, pgCmp w v = 0 ↔ w = v := fun w => pgCmp_zero
    have hn := pgCmp_neg c.value v
    cases ha : f.asc <;> simp [← hz] <;> omega

/-! ## All conditions of a column -/

theorem mergeCond_low {f : Field} {r : VB × VB} (c : SCond) (h : LowB r.1) :
    LowB (mergeCond f r c).1 := by
  unfold mergeCond
  dsimp only
  by_cases h0 : 0 ≤ (cmpBounds f (condBounds f c).1 r.1).1
  · rw [if_pos h0]; exact condBounds_low f c
  · rw [if_neg h0]; exact h

theorem mergeCond_high {f : Field} {r : VB × VB} (c : SCond) (h : HighB r.2) :
    HighB (mergeCond f r c).2 := by
  unfold mergeCond
  dsimp only
  by_cases h0 : (cmpBounds f (condBounds f c).2 r.2).1 ≤ 0
  · rw [if_pos h0]; exact condBounds_high f c
  · rw [if_neg h0]; exact h

theorem mergeCond_ok {f : Field} {r : VB × VB} (c : SCond) (hl : LowB r.1) (hh : HighB r.2)
    (x : Option Val) : colOk f (mergeCond f r c) x ↔ colOk f r x ∧ c.holds f x = true := by
  rw [← condBounds_ok]
  unfold colOk
  have h1 : lowOk f (mergeCond f r c).1 x ↔ lowOk f r.1 x ∧ lowOk f (condBounds f c).1 x := by
    unfold mergeCond
    dsimp only
    by_cases h0 : 0 ≤ (cmpBounds f (condBounds f c).1 r.1).1
    · rw [if_pos h0]
      exact ⟨fun h => ⟨low_ge (condBounds_low f c) hl h0 h, h⟩, fun h => h.2⟩
    · rw [if_neg h0]
      exact ⟨fun h => ⟨h, low_lt (condBounds_low f c) hl (by omega) h⟩, fun h => h.1⟩
  have h2 : highOk f (mergeCond f r c).2 x ↔ highOk f r.2 x ∧ highOk f (condBounds f c).2 x := by
    unfold mergeCond
    dsimp only
    by_cases h0 : (cmpBounds f (condBounds f c).2 r.2).1 ≤ 0
    · rw [if_pos h0]
      exact ⟨fun h => ⟨high_le (condBounds_high f c) hh h0 h, h⟩, fun h => h.2⟩
    · rw [if_neg h0]
      exact ⟨fun h => ⟨h, high_gt (condBounds_high f c) hh (by omega) h⟩, fun h => h.1⟩
  rw [h1, h2]
  exact ⟨fun ⟨⟨a, b⟩, c, d⟩ => ⟨⟨a, c⟩, b, d⟩, fun ⟨⟨a, c⟩, b, d⟩ => ⟨⟨a, b⟩, c, d⟩⟩

theorem fold_ok {f : Field} (l : List SCond) : ∀ {r : VB × VB}, LowB r.1 → HighB r.2 →
    LowB (l.foldl (mergeCond f) r).1 ∧ HighB (l.foldl (mergeCond f) r).2 ∧
    ∀ x, colOk f (l.foldl (mergeCond f) r) x ↔ colOk f r x ∧ ∀ c ∈ l, c.holds f x = true := by
  induction l with
  | nil => intro r h1 h2; exact ⟨h1, h2, fun x => by simp⟩
  | cons c l ih =>
    intro r h1 h2
    obtain ⟨a, b, d⟩ := ih (mergeCond_low c h1) (mergeCond_high c h2)
    refine ⟨a, b, fun x => ?_⟩
    rw [List.foldl_cons, d x, mergeCond_ok c h1 h2]
    simp only [List.mem_cons, forall_eq_or_imp]
    exact ⟨fun ⟨⟨p, q⟩, s⟩ => ⟨p, q, s⟩, fun ⟨p, q, s⟩ => ⟨⟨p, q⟩, s⟩⟩

theorem colRange_ok (f : Field) (cs : List SCond) (j : Nat) :
    LowB (colRange f cs j).1 ∧ HighB (colRange f cs j).2 ∧
    ∀ x, colOk f (colRange f cs j) x ↔ ∀ c ∈ cs, c.col = j → c.holds f x = true := by
  obtain ⟨a, b, d⟩ := fold_ok (f := f) (cs.filter (fun c => c.col == j))
    (r := (VB.minusInf, VB.plusInf)) ⟨rfl, rfl⟩ ⟨rfl, rfl⟩
  refine ⟨a, b, fun x => ?_⟩
  unfold colRange
  rw [d x]
  have h0 : colOk f (VB.minusInf, VB.plusInf) x := ⟨Or.inl rfl, Or.inl rfl⟩
  constructor
  · rintro ⟨_, h⟩ c hc hj
    exact h c (List.mem_filter.2 ⟨hc, by simpa using hj⟩)
  · intro h
    refine ⟨h0, fun c hc => ?_⟩
    obtain ⟨h1, h2⟩ := List.mem_filter.1 hc
    exact h c h1 (by simpa using h2)

/-- Without conditions a column is unbounded. -/
theorem colRange_none {f : Field} {cs : List SCond} {j : Nat} (h : ∀ c ∈ cs, c.col ≠ j) :
    colRange f cs j = (.minusInf, .plusInf) := by
  unfold colRange
  have : cs.filter (fun c => c.col == j) = [] := by
    rw [List.filter_eq_nil_iff]
    intro c hc
    simpa using h c hc
  rw [this]
  rfl

/-! ## Columns with an equality -/

/-- A range within one value. -/
def Within (f : Field) (v : Val) (r : VB × VB) : Prop :=
  r.1.unb = false ∧ r.2.unb = false ∧
  (cmpCol f (some v) r.1.pt < 0 ∨ r.1.pt = some v) ∧
  (cmpCol f r.2.pt (some v) < 0 ∨ r.2.pt = some v)

theorem Within.merge {f : Field} {v : Val} {r : VB × VB} (hl : LowB r.1) (hh : HighB r.2)
    (h : Within f v r) (c : SCond) : Within f v (mergeCond f r c) := by
  obtain ⟨u1, u2, p1, p2⟩ := h
  have hL : (mergeCond f r c).1.unb = false ∧
      (cmpCol f (some v) (mergeCond f r c).1.pt < 0 ∨ (mergeCond f r c).1.pt = some v) := by
    unfold mergeCond
    dsimp only
    by_cases h0 : 0 ≤ (cmpBounds f (condBounds f c).1 r.1).1
    · rw [if_pos h0]
      cases hu : (condBounds f c).1.unb with
      | true => rw [cmpBounds_unb_left hu u1, (condBounds_low f c).1] at h0; simp at h0
      | false =>
        refine ⟨rfl, ?_⟩
        rw [cmpBounds_pt hu u1] at h0
        have hn := cmpCol_neg f (condBounds f c).1.pt r.1.pt
        by_cases hz : cmpCol f (condBounds f c).1.pt r.1.pt = 0
        · rw [cmpCol_zero.1 hz]; exact p1
        · rw [if_neg hz] at h0
          have hlt : cmpCol f r.1.pt (condBounds f c).1.pt < 0 := by omega
          left
          rcases p1 with p1 | p1
          · exact cmpCol_trans p1 hlt
          · rw [← p1]; exact hlt
    · rw [if_neg h0]; exact ⟨u1, p1⟩
  have hH : (mergeCond f r c).2.unb = false ∧
      (cmpCol f (mergeCond f r c).2.pt (some v) < 0 ∨ (mergeCond f r c).2.pt = some v) := by
    unfold mergeCond
    dsimp only
    by_cases h0 : (cmpBounds f (condBounds f c).2 r.2).1 ≤ 0
    · rw [if_pos h0]
      cases hu : (condBounds f c).2.unb with
      | true => rw [cmpBounds_unb_left hu u2, (condBounds_high f c).1] at h0; simp at h0
      | false =>
        refine ⟨rfl, ?_⟩
        rw [cmpBounds_pt hu u2] at h0
        by_cases hz : cmpCol f (condBounds f c).2.pt r.2.pt = 0
        · rw [cmpCol_zero.1 hz]; exact p2
        · rw [if_neg hz] at h0
          have hlt : cmpCol f (condBounds f c).2.pt r.2.pt < 0 := by omega
          left
          rcases p2 with p2 | p2
          · exact cmpCol_trans hlt p2
          · rw [← p2]; exact hlt
    · rw [if_neg h0]; exact ⟨u2, p2⟩
  exact ⟨hL.1, hH.1, hL.2, hH.2⟩

theorem Within.of_eq {f : Field} {r : VB × VB} (hl : LowB r.1) (hh : HighB r.2)
    {c : SCond} (hc : c.op = .eq) : Within f c.value (mergeCond f r c) := by
  have e1 : (condBounds f c).1 = ⟨c.value, c.ty, true, false, true, false, false⟩ := by
    simp [condBounds, hc]
  have e2 : (condBounds f c).2 = ⟨c.value, c.ty, false, true, true, false, false⟩ := by
    simp [condBounds, hc]
  have hL : (mergeCond f r c).1.unb = false ∧
      (cmpCol f (some c.value) (mergeCond f r c).1.pt < 0 ∨
        (mergeCond f r c).1.pt = some c.value) := by
    unfold mergeCond
    dsimp only
    by_cases h0 : 0 ≤ (cmpBounds f (condBounds f c).1 r.1).1
    · rw [if_pos h0, e1]; exact ⟨rfl, Or.inr rfl⟩
    · rw [if_neg h0]
      cases hu : r.1.unb with
      | true =>
        rw [cmpBounds_unb_right (by rw [e1]) hu, hl.1] at h0
        simp at h0
      | false =>
        refine ⟨rfl, ?_⟩
        rw [cmpBounds_pt (by rw [e1]) hu, e1] at h0
        have hp : VB.pt ⟨c.value, c.ty, true, false, true, false, false⟩ = some c.value := rfl
        rw [hp] at h0
        by_cases hz : cmpCol f (some c.value) r.1.pt = 0
        · right; exact (cmpCol_zero.1 hz).symm
        · rw [if_neg hz] at h0; left; omega
  have hH : (mergeCond f r c).2.unb = false ∧
      (cmpCol f (mergeCond f r c).2.pt (some c.value) < 0 ∨
        (mergeCond f r c).2.pt = some c.value) := by
    unfold mergeCond
    dsimp only
    by_cases h0 : (cmpBounds f (condBounds f c).2 r.2).1 ≤ 0
    · rw [if_pos h0, e2]; exact ⟨rfl, Or.inr rfl⟩
    · rw [if_neg h0]
      cases hu : r.2.unb with
      | true =>
        rw [cmpBounds_unb_right (by rw [e2]) hu, hh.1] at h0
        simp at h0
      | false =>
        refine ⟨rfl, ?_⟩
        rw [cmpBounds_pt (by rw [e2]) hu, e2] at h0
        have hp : VB.pt ⟨c.value, c.ty, false, true, true, false, false⟩ = some c.value := rfl
        rw [hp] at h0
        have hn := cmpCol_neg f (some c.value) r.2.pt
        by_cases hz : cmpCol f (some c.value) r.2.pt = 0
        · right; exact (cmpCol_zero.1 hz).symm
        · rw [if_neg hz] at h0; left; omega
  exact ⟨hL.1, hH.1, hL.2, hH.2⟩

theorem Within.fold {f : Field} {v : Val} (l : List SCond) : ∀ {r : VB × VB}, LowB r.1 → HighB r.2 →
    Within f v r → Within f v (l.foldl (mergeCond f) r) := by
  induction l with
  | nil => intro r _ _ h; exact h
  | cons c l ih =>
    intro r h1 h2 h
    exact ih (mergeCond_low c h1) (mergeCond_high c h2) (h.merge h1 h2 c)

theorem Within.fold_eq {f : Field} (l : List SCond) : ∀ {r : VB × VB}, LowB r.1 → HighB r.2 →
    ∀ c ∈ l, c.op = .eq → Within f c.value (l.foldl (mergeCond f) r) := by
  induction l with
  | nil => intro r _ _ c hc; cases hc
  | cons d l ih =>
    intro r h1 h2 c hc hop
    rcases List.mem_cons.1 hc with rfl | hc
    · exact Within.fold l (mergeCond_low c h1) (mergeCond_high c h2) (Within.of_eq h1 h2 hop)
    · exact ih (mergeCond_low d h1) (mergeCond_high d h2) c hc hop

/-- Within the range both bounds compare equal. -/
def Point (f : Field) (lh : VB × VB) : Prop :=
  lh.1.unb = false ∧ lh.2.unb = false ∧
  ∀ x, cmpVal f lh.1 x ≤ 0 → 0 ≤ cmpVal f lh.2 x → cmpVal f lh.1 x = 0 ∧ cmpVal f lh.2 x = 0

theorem Within.point {f : Field} {v : Val} {r : VB × VB} (hl : LowB r.1) (hh : HighB r.2)
    (h : Within f v r) : Point f r := by
  obtain ⟨u1, u2, p1, p2⟩ := h
  refine ⟨u1, u2, ?_⟩
  intro x h1 h2
  have a1 := (hl.ok_iff u1).1 (Or.inr h1 : lowOk f r.1 x)
  have a2 := (hh.ok_iff u2).1 (Or.inr h2 : highOk f r.2 x)
  -- `v` is not above `x` and not below it
  have hvx : cmpCol f (some v) x < 0 ∨ (some v = x ∧ r.1.pt = x ∧ r.1.incl = true) := by
    rcases p1 with p1 | p1 <;> rcases a1 with a1 | ⟨a1, a1'⟩
    · exact Or.inl (cmpCol_trans p1 a1)
    · rw [← a1]; exact Or.inl p1
    · rw [← p1]; exact Or.inl a1
    · exact Or.inr ⟨by rw [← p1, a1], a1, a1'⟩
  have hxv : cmpCol f x (some v) < 0 ∨ (some v = x ∧ r.2.pt = x ∧ r.2.incl = true) := by
    rcases p2 with p2 | p2 <;> rcases a2 with a2 | ⟨a2, a2'⟩
    · exact Or.inl (cmpCol_trans a2 p2)
    · rw [← a2]; exact Or.inl p2
    · rw [← p2]; exact Or.inl a2
    · exact Or.inr ⟨by rw [← p2, a2], a2, a2'⟩
  have hn := cmpCol_neg f (some v) x
  rcases hvx with hvx | ⟨e1, e2, e3⟩
  · rcases hxv with hxv | ⟨e1, _, _⟩
    · omega
    · have := cmpCol_zero (f := f).2 e1; omega
  · rcases hxv with hxv | ⟨_, e4, e5⟩
    · have := cmpCol_zero (f := f).2 e1; omega
    · rw [hl.val, hh.val, e2, e4]
      have hz : cmpCol f x x = 0 := cmpCol_zero.2 rfl
      simp [hz, e3, e5]

theorem colRange_point {f : Field} {cs : List SCond} {j : Nat} {c : SCond} (hc : c ∈ cs)
    (hj : c.col = j) (hop : c.op = .eq) : Point f (colRange f cs j) := by
  have h := Within.fold_eq (f := f) (cs.filter (fun c => c.col == j))
    (r := (VB.minusInf, VB.plusInf)) ⟨rfl, rfl⟩ ⟨rfl, rfl⟩ c
    (List.mem_filter.2 ⟨hc, by simpa using hj⟩) hop
  obtain ⟨a, b, _⟩ := colRange_ok f cs j
  exact Within.point a b h

/-! ## Values in the range are set -/

/-- A range whose bounds are values holds no NULLs. -/
theorem colRange_set {f : Field} {cs : List SCond} {j : Nat} {x : Option Val}
    (hx : colOk f (colRange f cs j) x) :
    ((colRange f cs j).1.unb = false → (colRange f cs j).1.isnull = false → x.isSome = true) ∧
    ((colRange f cs j).2.unb = false → (colRange f cs j).2.isnull = false → x.isSome = true) := by
  -- bounds that are values come from a condition on values
  have key : ∀ (l : List SCond) (r : VB × VB), LowB r.1 → HighB r.2 →
      (∀ y, colOk f r y → (r.1.unb = false → r.1.isnull = false → y.isSome = true) ∧
        (r.2.unb = false → r.2.isnull = false → y.isSome = true)) →
      ∀ y, colOk f (l.foldl (mergeCond f) r) y →
        ((l.foldl (mergeCond f) r).1.unb = false → (l.foldl (mergeCond f) r).1.isnull = false →
          y.isSome = true) ∧
        ((l.foldl (mergeCond f) r).2.unb = false → (l.foldl (mergeCond f) r).2.isnull = false →
          y.isSome = true) := by
    intro l
    induction l with
    | nil => intro r _ _ h y hy; exact h y hy
    | cons c l ih =>
      intro r h1 h2 h y hy
      refine ih (mergeCond f r c) (mergeCond_low c h1) (mergeCond_high c h2) ?_ y hy
      intro z hz
      obtain ⟨hz1, hz2⟩ := (mergeCond_ok c h1 h2 z).1 hz
      obtain ⟨g1, g2⟩ := h z hz1
      have hc1 : (condBounds f c).1.unb = false → (condBounds f c).1.isnull = false →
          z.isSome = true := by
        cases z with
        | some _ => intro _ _; rfl
        | none =>
          unfold SCond.holds at hz2
          unfold condBounds
          cases hop : c.op <;> cases hnf : f.nullfirst <;> rw [hop] at hz2 <;>
            simp_all [VB.minusInf]
      have hc2 : (condBounds f c).2.unb = false → (condBounds f c).2.isnull = false →
          z.isSome = true := by
        cases z with
        | some _ => intro _ _; rfl
        | none =>
          unfold SCond.holds at hz2
          unfold condBounds
          cases hop : c.op <;> cases hnf : f.nullfirst <;> rw [hop] at hz2 <;>
            simp_all [VB.plusInf]
      unfold mergeCond
      dsimp only
      constructor
      · by_cases h0 : 0 ≤ (cmpBounds f (condBounds f c).1 r.1).1
        · rw [if_pos h0]; exact hc1
        · rw [if_neg h0]; exact g1
      · by_cases h0 : (cmpBounds f (condBounds f c).2 r.2).1 ≤ 0
        · rw [if_pos h0]; exact hc2
        · rw [if_neg h0]; exact g2
  exact key _ (VB.minusInf, VB.plusInf) ⟨rfl, rfl⟩ ⟨rfl, rfl⟩
    (fun y _ => ⟨fun h => (by cases h), fun h => (by cases h)⟩) x hx

/-! ## Empty ranges and single values -/

theorem range_empty {f : Field} {r : VB × VB} (hl : LowB r.1) (hh : HighB r.2)
    (h : 0 ≤ (cmpBounds f r.1 r.2).1) (x : Option Val) : ¬ colOk f r x := by
  intro ⟨h1, h2⟩
  cases hu1 : r.1.unb with
  | true =>
    cases hu2 : r.2.unb with
    | true =>
      unfold cmpBounds at h
      simp [hu1, hu2, hl.1, hh.1, hl.2, hh.2] at h
    | false => rw [cmpBounds_unb_left hu1 hu2, hl.1] at h; simp at h
  | false =>
    cases hu2 : r.2.unb with
    | true => rw [cmpBounds_unb_right hu1 hu2, hh.1] at h; simp at h
    | false =>
      rw [cmpBounds_pt hu1 hu2] at h
      have a1 := (hl.ok_iff hu1).1 h1
      have a2 := (hh.ok_iff hu2).1 h2
      have hn := cmpCol_neg f r.1.pt r.2.pt
      by_cases h0 : cmpCol f r.1.pt r.2.pt = 0
      · rw [if_pos h0, cmpIncl_low hl, cmpIncl_high hh] at h
        have he := cmpCol_zero.1 h0
        rcases a1 with a1 | ⟨a1, a1'⟩
        · rcases a2 with a2 | ⟨a2, a2'⟩
          · have := cmpCol_trans a1 a2; omega
          · rw [← a2, ← he] at a1
            have := cmpCol_zero (f := f) (x := r.1.pt) (y := r.1.pt) |>.2 rfl
            omega
        · rcases a2 with a2 | ⟨a2, a2'⟩
          · rw [← a1] at a2; omega
          · rw [a1', a2'] at h; simp at h
      · rw [if_neg h0] at h
        have hlt : cmpCol f r.2.pt r.1.pt < 0 := by omega
        rcases a1 with a1 | ⟨a1, _⟩
        · rcases a2 with a2 | ⟨a2, _⟩
          · have := cmpCol_trans a1 a2; omega
          · rw [← a2] at a1; omega
        · rcases a2 with a2 | ⟨a2, _⟩
          · rw [← a1] at a2; omega
          · rw [← a1] at a2
            have := cmpCol_zero (f := f).2 a2
            omega

theorem range_exact {f : Field} {r : VB × VB} (hl : LowB r.1) (hh : HighB r.2)
    (h : (cmpBounds f r.1 r.2).2 = true) :
    r.1.unb = false ∧ ∀ x, colOk f r x ↔ cmpVal f r.1 x = 0 := by
  have hall : r.1.isnull = false ∧ r.1.unb = false ∧ r.2.isnull = false ∧ r.2.unb = false ∧
      r.1.incl = true ∧ r.2.incl = true ∧ cmpCol f r.1.pt r.2.pt = 0 := by
    unfold cmpBounds at h
    by_cases hc : (!r.1.isnull && !r.1.unb && !r.2.isnull && !r.2.unb) = true
    · rw [if_pos hc] at h
      dsimp only at h
      simp only [Bool.and_eq_true, Bool.not_eq_true'] at hc
      obtain ⟨⟨⟨n1, u1⟩, n2⟩, u2⟩ := hc
      by_cases hz : (if (!f.asc) = true then -pgCmp r.1.value r.2.value
          else pgCmp r.1.value r.2.value) = 0
      · rw [if_pos hz] at h
        simp only [Bool.and_eq_true] at h
        refine ⟨n1, u1, n2, u2, h.1, h.2, ?_⟩
        simp only [VB.pt, n1, n2, cmpCol, Bool.false_eq_true, if_false]
        exact hz
      · rw [if_neg hz] at h; cases h
    · rw [if_neg hc] at h
      by_cases hu : (r.1.unb || r.2.unb) = true
      · rw [if_pos hu] at h
        by_cases hb : (r.1.unb && r.2.unb) = true
        · rw [if_pos hb] at h
          by_cases he : r.1.lower = r.2.lower ∧ r.1.upper = r.2.upper
          · rw [if_pos he] at h; cases h
          · rw [if_neg he] at h; cases h
        · rw [if_neg hb] at h
          by_cases h1 : r.1.unb = true
          · rw [if_pos h1] at h; cases h
          · rw [if_neg h1] at h; cases h
      · rw [if_neg hu] at h
        by_cases hb : (r.1.isnull && r.2.isnull) = true
        · rw [if_pos hb] at h; cases h
        · rw [if_neg hb] at h
          by_cases h1 : r.1.isnull = true
          · rw [if_pos h1] at h; cases h
          · rw [if_neg h1] at h; cases h
  obtain ⟨n1, u1, n2, u2, i1, i2, hz⟩ := hall
  refine ⟨u1, fun x => ?_⟩
  have he := cmpCol_zero.1 hz
  unfold colOk
  rw [hl.ok_iff u1, hh.ok_iff u2, hl.val, ← he]
  rw [if_neg (by rw [i1]; simp), cmpCol_zero]
  have hn := cmpCol_neg f r.1.pt x
  constructor
  · rintro ⟨a | ⟨a, _⟩, b | ⟨b, _⟩⟩
    · omega
    · exact b
    · exact a
    · exact a
  · intro hx
    exact ⟨Or.inr ⟨hx, i1⟩, Or.inr ⟨hx, i2⟩⟩

end Verif.Fastpath
