import Verif.Fastpath.Search

/-!
# The order of rows

The comparators order values and rows totally, and the result of comparing a key falls along this
order.
-/

namespace Verif.Fastpath

/-! ## Values -/

theorem icmp_zero {a b : Int} : icmp a b = 0 ↔ a = b := by
  unfold icmp; constructor <;> intro h
  · by_cases h1 : a < b
    · simp [h1] at h
    · by_cases h2 : b < a
      · simp [h1, h2] at h
      · omega
  · subst h; simp

theorem icmp_neg (a b : Int) : icmp b a = - icmp a b := by
  unfold icmp
  by_cases h1 : a < b
  · have : ¬ b < a := by omega
    simp [h1, this]
  · by_cases h2 : b < a
    · simp [h1, h2]
    · simp [h1, h2]

theorem icmp_lt {a b : Int} : icmp a b < 0 ↔ a < b := by
  unfold icmp
  by_cases h1 : a < b
  · simp [h1]
  · by_cases h2 : b < a
    · simp [h1, h2]
    · simp [h1, h2]

theorem icmp_gt {a b : Int} : 0 < icmp a b ↔ b < a := by
  unfold icmp
  by_cases h1 : a < b
  · simp [h1]; omega
  · by_cases h2 : b < a
    · simp [h1, h2]
    · simp [h1, h2]

theorem pgCmp_zero {a b : Val} : pgCmp a b = 0 ↔ a = b := by
  cases a <;> cases b <;>
    simp only [pgCmp, icmp_zero, Val.int.injEq, Val.fl.injEq, Val.tid.injEq, Val.tag,
      reduceCtorEq, iff_false] <;> try decide
  rename_i b o b' o'
  by_cases h1 : b < b'
  · simp [h1]; omega
  · by_cases h2 : b' < b
    · simp [h1, h2]; omega
    · simp [h1, h2, icmp_zero]; omega

theorem pgCmp_neg (a b : Val) : pgCmp b a = - pgCmp a b := by
  cases a <;> cases b <;> simp only [pgCmp, Val.tag] <;>
    first
      | exact icmp_neg _ _
      | decide
      | skip
  rename_i b o b' o'
  by_cases h1 : b < b'
  · have : ¬ b' < b := by omega
    simp [h1, this]
  · by_cases h2 : b' < b
    · simp [h1, h2]
    · simp only [h1, h2, if_false]; exact icmp_neg _ _

/-- A number whose order is that of `pgCmp`, lexicographically. -/
theorem pgCmp_trans {a b c : Val} (h1 : pgCmp a b < 0) (h2 : pgCmp b c < 0) : pgCmp a c < 0 := by
  cases a <;> cases b <;> cases c <;> simp only [pgCmp, Val.tag, icmp_lt] at * <;>
    first
      | omega
      | (revert h1 h2; decide)
      | skip
  all_goals
    (try (split at h1 <;> split at h2 <;> (try split at h1) <;> (try split at h2) <;>
      (try simp only [icmp_lt] at h1) <;> (try simp only [icmp_lt] at h2) <;>
      (try split) <;> (try split) <;> (try simp only [icmp_lt]) <;> omega))

theorem cmpCol_zero {f : Field} {x y : Option Val} : cmpCol f x y = 0 ↔ x = y := by
  cases x with
  | none =>
    cases y with
    | none => simp [cmpCol]
    | some w => cases h : f.nullfirst <;> simp [cmpCol, h]
  | some v =>
    cases y with
    | none => cases h : f.nullfirst <;> simp [cmpCol, h]
    | some w =>
      cases h : f.asc
      · simp only [cmpCol, h, Bool.not_false, if_true, Option.some.injEq]
        rw [← pgCmp_zero (a := v) (b := w)]; omega
      · simp only [cmpCol, h, Bool.not_true, Bool.false_eq_true, if_false, Option.some.injEq]
        exact pgCmp_zero

theorem cmpCol_neg (f : Field) (x y : Option Val) : cmpCol f y x = - cmpCol f x y := by
  cases x <;> cases y <;> simp only [cmpCol]
  · rfl
  · cases f.nullfirst <;> simp
  · cases f.nullfirst <;> simp
  · rename_i a b
    rw [pgCmp_neg a b]
    cases f.asc <;> simp

theorem cmpCol_trans {f : Field} {x y z : Option Val} (h1 : cmpCol f x y < 0)
    (h2 : cmpCol f y z < 0) : cmpCol f x z < 0 := by
  cases x <;> cases y <;> cases z <;> simp only [cmpCol] at * <;>
    first
      | (cases hf : f.nullfirst <;> rw [hf] at h1 h2 <;> simp at h1 h2; done)
      | (cases hf : f.nullfirst <;> simp [hf] at *; done)
      | skip
  rename_i a b c
  cases ha : f.asc
  · simp only [ha, Bool.not_false, if_true] at *
    have h1' : pgCmp b a < 0 := by rw [pgCmp_neg a b]; exact h1
    have h2' : pgCmp c b < 0 := by rw [pgCmp_neg b c]; exact h2
    have := pgCmp_trans h2' h1'
    rw [pgCmp_neg c a]; omega
  · simp only [ha, Bool.not_true, Bool.false_eq_true, if_false] at *
    exact pgCmp_trans h1 h2

/-! ## Rows -/

theorem cmpRows_self (fs : List Field) (a : Row) : cmpRows fs a a = 0 := by
  induction fs generalizing a with
  | nil => rfl
  | cons f fs ih =>
    cases a with
    | nil => rfl
    | cons x a =>
      simp only [cmpRows]
      have : cmpCol f x x = 0 := cmpCol_zero.2 rfl
      rw [this]
      simp [ih a]

theorem cmpRows_neg (fs : List Field) (a b : Row) : cmpRows fs b a = - cmpRows fs a b := by
  induction fs generalizing a b with
  | nil => rfl
  | cons f fs ih =>
    cases a with
    | nil => cases b <;> rfl
    | cons x a =>
      cases b with
      | nil => rfl
      | cons y b =>
        simp only [cmpRows]
        by_cases hi : f.ignored = true
        · simp [hi, ih a b]
        · rw [if_neg hi, if_neg hi, cmpCol_neg f x y]
          by_cases h0 : cmpCol f x y = 0
          · simp [h0, ih a b]
          · have : ¬ - cmpCol f x y = 0 := by omega
            simp [h0, this]

theorem cmpRows_ign {f : Field} {fs : List Field} {x y : Option Val} {a b : Row}
    (h : f.ignored = true) : cmpRows (f :: fs) (x :: a) (y :: b) = cmpRows fs a b := by
  simp [cmpRows, h]

theorem cmpRows_same {f : Field} {fs : List Field} {x y : Option Val} {a b : Row}
    (h : ¬ f.ignored = true) (h0 : cmpCol f x y = 0) :
    cmpRows (f :: fs) (x :: a) (y :: b) = cmpRows fs a b := by
  simp [cmpRows, h, h0]

theorem cmpRows_diff {f : Field} {fs : List Field} {x y : Option Val} {a b : Row}
    (h : ¬ f.ignored = true) (h0 : ¬ cmpCol f x y = 0) :
    cmpRows (f :: fs) (x :: a) (y :: b) = cmpCol f x y := by
  simp [cmpRows, h, h0]

/-- Lists at least as long as the columns. -/
def Long (fs : List Field) (a : Row) : Prop := fs.length ≤ a.length

theorem cmpRows_trans {fs : List Field} {a b c : Row} (ha : Long fs a) (hb : Long fs b)
    (hc : Long fs c) (h1 : cmpRows fs a b ≤ 0) (h2 : cmpRows fs b c ≤ 0) :
    cmpRows fs a c ≤ 0 ∧ (cmpRows fs a b < 0 ∨ cmpRows fs b c < 0 → cmpRows fs a c < 0) := by
  induction fs generalizing a b c with
  | nil => simp [cmpRows]
  | cons f fs ih =>
    cases a with
    | nil => simp [Long] at ha
    | cons x a =>
      cases b with
      | nil => simp [Long] at hb
      | cons y b =>
        cases c with
        | nil => simp [Long] at hc
        | cons z c =>
          simp only [Long, List.length_cons, Nat.add_le_add_iff_right] at ha hb hc
          by_cases hi : f.ignored = true
          · rw [cmpRows_ign hi] at *
            rw [cmpRows_ign hi] at *
            rw [cmpRows_ign hi] at *
            exact ih ha hb hc h1 h2
          · by_cases hxy : cmpCol f x y = 0
            · have e1 := cmpCol_zero.1 hxy
              subst e1
              rw [cmpRows_same hi hxy] at h1
              rw [cmpRows_same hi hxy]
              by_cases hyz : cmpCol f x z = 0
              · rw [cmpRows_same hi hyz] at h2
                rw [cmpRows_same hi hyz, cmpRows_same hi hyz]
                exact ih ha hb hc h1 h2
              · rw [cmpRows_diff hi hyz] at h2
                rw [cmpRows_diff hi hyz, cmpRows_diff hi hyz]
                exact ⟨h2, fun _ => by omega⟩
            · rw [cmpRows_diff hi hxy] at h1
              rw [cmpRows_diff hi hxy]
              by_cases hyz : cmpCol f y z = 0
              · have e1 := cmpCol_zero.1 hyz
                subst e1
                rw [cmpRows_diff hi hxy]
                exact ⟨h1, fun _ => by omega⟩
              · rw [cmpRows_diff hi hyz] at h2
                rw [cmpRows_diff hi hyz]
                have h3 := cmpCol_trans (f := f) (x := x) (y := y) (z := z) (by omega) (by omega)
                rw [cmpRows_diff hi (by omega)]
                exact ⟨by omega, fun _ => h3⟩

/-- Comparing the leading columns only. -/
theorem cmpRows_take {fs : List Field} (m : Nat) {a b : Row} (h : cmpRows fs a b ≤ 0) :
    cmpRows (fs.take m) a b ≤ 0 := by
  induction fs generalizing a b m with
  | nil => simp [cmpRows]
  | cons f fs ih =>
    cases m with
    | zero => simp [cmpRows]
    | succ m =>
      cases a with
      | nil => simp [cmpRows]
      | cons x a =>
        cases b with
        | nil => simp [cmpRows]
        | cons y b =>
          simp only [List.take_succ_cons, cmpRows] at *
          by_cases hi : f.ignored = true
          · simp only [hi, if_true] at *
            exact ih m h
          · simp only [hi, Bool.false_eq_true, if_false] at *
            by_cases hxy : cmpCol f x y = 0
            · simp only [hxy, ne_eq, not_true_eq_false, if_false] at *
              exact ih m h
            · simp only [hxy, ne_eq, not_false_eq_true, if_true] at *
              exact h

/-! ## Keys -/

theorem cmpVal_anti {f : Field} {b : VB} {x y : Option Val} (h : cmpCol f x y < 0)
    (hb : 0 ≤ cmpVal f b y) : 0 < cmpVal f b x := by
  cases x with
  | none =>
    cases y with
    | none => simp [cmpCol] at h
    | some w =>
      have hnf : f.nullfirst = true := by
        simp only [cmpCol] at h
        cases hf : f.nullfirst
        · rw [hf] at h; simp at h
        · rfl
      cases hn : b.isnull
      · simp [cmpVal, hn, hnf]
      · simp [cmpVal, hn, hnf] at hb
  | some v =>
    cases y with
    | none =>
      have hnf : f.nullfirst = false := by
        simp only [cmpCol] at h
        cases hf : f.nullfirst
        · rfl
        · rw [hf] at h; simp at h
      cases hn : b.isnull
      · simp [cmpVal, hn, hnf] at hb
      · simp [cmpVal, hn, hnf]
    | some w =>
      cases hn : b.isnull
      · have key : (if !f.asc then - pgCmp v w else pgCmp v w) < 0 := by
          simpa [cmpCol] using h
        have hb' : 0 ≤ (if !f.asc then - pgCmp b.value w else pgCmp b.value w) := by
          simp only [cmpVal, hn, Bool.not_false, if_true] at hb
          by_cases hz : ((if !f.asc then - pgCmp b.value w else pgCmp b.value w) == 0) = true
          · have := beq_iff_eq.1 hz; omega
          · rw [show ((if !f.asc then - pgCmp b.value w else pgCmp b.value w) == 0) = false
              from by simpa using hz] at hb
            simpa using hb
        have goal : 0 < (if !f.asc then - pgCmp b.value v else pgCmp b.value v) := by
          cases ha : f.asc
          · simp only [ha, Bool.not_false, if_true] at *
            by_cases h0 : pgCmp b.value w = 0
            · have := pgCmp_zero.1 h0
              rw [this, pgCmp_neg v w]; omega
            · have h1 : pgCmp w v < 0 := by rw [pgCmp_neg v w]; exact key
              have := pgCmp_trans (a := b.value) (b := w) (c := v) (by omega) h1
              omega
          · simp only [ha, Bool.not_true, Bool.false_eq_true, if_false] at *
            by_cases h0 : pgCmp b.value w = 0
            · have := pgCmp_zero.1 h0
              rw [this, pgCmp_neg v w]; omega
            · have h1 : pgCmp w b.value < 0 := by rw [pgCmp_neg b.value w]; omega
              have := pgCmp_trans key h1
              rw [pgCmp_neg v b.value]; omega
        simp only [cmpVal, hn, Bool.not_false, if_true]
        rw [show ((if !f.asc then - pgCmp b.value v else pgCmp b.value v) == 0) = false from by
          rw [beq_eq_false_iff_ne]; omega]
        simpa using goal
      · simp only [cmpVal, hn, Bool.not_true, Bool.false_eq_true, if_false] at *
        cases hf : f.nullfirst <;> simp_all

theorem cmpBnd_anti {fin : Int} {fs : List Field} {bs : List VB} {a b : Row} (ha : Long fs a)
    (hb : Long fs b) (h : cmpRows fs a b ≤ 0) :
    (0 ≤ cmpBnd fin fs bs b → 0 ≤ cmpBnd fin fs bs a) ∧
    (0 < cmpBnd fin fs bs b → 0 < cmpBnd fin fs bs a) := by
  induction fs generalizing a b bs with
  | nil => simp [cmpBnd]
  | cons f fs ih =>
    cases bs with
    | nil => simp [cmpBnd]
    | cons k bs =>
      cases a with
      | nil => simp [Long] at ha
      | cons x a =>
        cases b with
        | nil => simp [Long] at hb
        | cons y b =>
          simp only [Long, List.length_cons, Nat.add_le_add_iff_right] at ha hb
          simp only [cmpRows, cmpBnd] at *
          by_cases hi : f.ignored = true
          · simp only [hi, if_true] at *
            exact ih ha hb h
          · simp only [hi, Bool.false_eq_true, if_false] at *
            by_cases hu : k.unb = true
            · simp [hu]
            · simp only [hu, Bool.false_eq_true, if_false]
              by_cases hxy : cmpCol f x y = 0
              · have e1 := cmpCol_zero.1 hxy
                subst e1
                rw [if_neg (fun hh => hh hxy)] at h
                by_cases hv : cmpVal f k x = 0
                · simp only [hv, ne_eq, not_true_eq_false, if_false]
                  exact ih ha hb h
                · simp [hv]
              · simp only [ne_eq, hxy, not_false_eq_true, if_true] at h
                have hlt : cmpCol f x y < 0 := by omega
                have := cmpVal_anti (b := k) hlt
                by_cases hy : cmpVal f k y = 0
                · have hx := this (by omega)
                  have hx' : ¬ cmpVal f k x = 0 := by omega
                  simp only [hx', ne_eq, not_false_eq_true, if_true]
                  exact ⟨fun _ => by omega, fun _ => hx⟩
                · simp only [hy, ne_eq, not_false_eq_true, if_true]
                  constructor
                  · intro h0
                    have hx := this (by omega)
                    have hx' : ¬ cmpVal f k x = 0 := by omega
                    simp only [hx', not_false_eq_true, if_true]
                    omega
                  · intro h0
                    have hx := this (by omega)
                    have hx' : ¬ cmpVal f k x = 0 := by omega
                    simp only [hx', not_false_eq_true, if_true]
                    exact hx

theorem Idx.cols_le (ix : Idx) : ix.cols.length ≤ ix.fields.length := by
  unfold Idx.cols
  split
  · simp only [List.length_take]; omega
  · exact Nat.le_refl _

/-- A row of the index has a value for each column. -/
def Idx.Full (ix : Idx) (r : Row) : Prop := r.length = ix.fields.length

/-- The key is one of those that are compared with rows, and complete. -/
def Idx.KeyOk (ix : Idx) : SKey → Prop
  | .bound _ => True
  | .tuple r => ix.Full r
  | .hikey r => ix.Full r
  | _ => False

theorem Idx.Full.long {ix : Idx} {r : Row} (h : ix.Full r) : Long ix.cols r := by
  unfold Long Idx.Full at *
  have := ix.cols_le
  omega

/-- The result of comparing a key falls along the rows. -/
theorem Idx.cmpKey_anti {ix : Idx} {k : SKey} (hk : ix.KeyOk k) {a b : Row} (ha : ix.Full a)
    (hb : ix.Full b) (h : ix.cmp a b ≤ 0) :
    (0 ≤ ix.cmpKey k b → 0 ≤ ix.cmpKey k a) ∧ (0 < ix.cmpKey k b → 0 < ix.cmpKey k a) := by
  have tup : ∀ r : Row, ix.Full r → (0 ≤ ix.cmp r b → 0 ≤ ix.cmp r a) ∧
      (0 < ix.cmp r b → 0 < ix.cmp r a) := by
    intro r hr
    have n1 : ix.cmp r b = - ix.cmp b r := cmpRows_neg _ _ _
    have n2 : ix.cmp r a = - ix.cmp a r := cmpRows_neg _ _ _
    constructor
    · intro h0
      have := (cmpRows_trans ha.long hb.long hr.long h
        (show cmpRows ix.cols b r ≤ 0 by unfold Idx.cmp at n1 h0; omega)).1
      unfold Idx.cmp at *; omega
    · intro h0
      have := (cmpRows_trans ha.long hb.long hr.long h
        (show cmpRows ix.cols b r ≤ 0 by unfold Idx.cmp at n1 h0; omega)).2
        (Or.inr (by unfold Idx.cmp at n1 h0; omega))
      unfold Idx.cmp at *; omega
  cases k with
  | bound bs => exact cmpBnd_anti ha.long hb.long h
  | tuple r => exact tup r hk
  | hikey r => exact tup r hk
  | none => exact hk.elim
  | rightmost => exact hk.elim
  | uniqLow _ => exact hk.elim
  | uniqHigh _ => exact hk.elim

end Verif.Fastpath
