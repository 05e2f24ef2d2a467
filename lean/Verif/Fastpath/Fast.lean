import Verif.Fastpath.Order

/-!
# The fast path and the comparators

For keys whose columns the fast path treats as the comparators do, it classifies every separator
in the same way.
-/

namespace Verif.Fastpath

/-! ## Values -/

/-- A value of the column that is not NaN. -/
def okVal (f : Field) (v : Val) : Bool := v.hasTy f.ty && decide (v ≠ .nan)

/-- The sign of a comparison. -/
def sgn (c : Int) : Ordering := if c < 0 then .lt else if c = 0 then .eq else .gt

theorem side_sgn {f : Field} {v k : Val} (hv : okVal f v = true) (hk : okVal f k = true) :
    side f.asc k v = sgn (cmpCol f (some v) (some k)) := by
  have hv1 : v.hasTy f.ty = true := (Bool.and_eq_true_iff.1 hv).1
  have hv2 : v ≠ .nan := of_decide_eq_true (Bool.and_eq_true_iff.1 hv).2
  have hk1 : k.hasTy f.ty = true := (Bool.and_eq_true_iff.1 hk).1
  have hk2 : k ≠ .nan := of_decide_eq_true (Bool.and_eq_true_iff.1 hk).2
  have int : ∀ (b : Bool) (x y : Int), (if (x == y) = true then Ordering.eq
      else if (if b = true then decide (y < x) else decide (x < y)) = true then .gt else .lt)
      = sgn (if (!b) = true then -icmp x y else icmp x y) := by
    intro b x y
    unfold sgn icmp
    rcases Int.lt_trichotomy x y with h | h | h
    · have h1 : ¬ x = y := by omega
      have h2 : ¬ y < x := by omega
      cases b <;> simp [h, h1, h2]
    · subst h
      cases b <;> simp
    · have h1 : ¬ x = y := by omega
      have h2 : ¬ x < y := by omega
      cases b <;> simp [h, h1, h2]
  generalize f.ty = ty at *
  cases v with
  | nan => exact absurd rfl hv2
  | int x =>
    cases k with
    | nan => exact absurd rfl hk2
    | int y =>
      simp only [side, cEq, cGt, cLt, cmpCol, pgCmp]
      exact int f.asc x y
    | fl y => cases ty <;> simp [Val.hasTy] at hv1 hk1
    | tid y z => cases ty <;> simp [Val.hasTy] at hv1 hk1
  | fl x =>
    cases k with
    | nan => exact absurd rfl hk2
    | fl y =>
      simp only [side, cEq, cGt, cLt, cmpCol, pgCmp]
      exact int f.asc x y
    | int y => cases ty <;> simp [Val.hasTy] at hv1 hk1
    | tid y z => cases ty <;> simp [Val.hasTy] at hv1 hk1
  | tid b o =>
    cases k with
    | nan => exact absurd rfl hk2
    | int y => cases ty <;> simp [Val.hasTy] at hv1 hk1
    | fl y => cases ty <;> simp [Val.hasTy] at hv1 hk1
    | tid b' o' =>
      simp only [side, cEq, cGt, cLt, cmpCol, pgCmp]
      unfold sgn icmp
      rcases Nat.lt_trichotomy b b' with h | h | h
      · have h1 : ¬ b = b' := by omega
        have h2 : ¬ b' < b := by omega
        cases f.asc <;> simp [h, h1, h2]
      · subst h
        rcases Nat.lt_trichotomy o o' with h | h | h
        · have h1 : ¬ o = o' := by omega
          have h2 : ¬ o' < o := by omega
          cases f.asc <;> simp [h, h1, h2]
        · subst h
          cases f.asc <;> simp
        · have h1 : ¬ o = o' := by omega
          have h2 : ¬ o < o' := by omega
          cases f.asc <;> simp [h, h1, h2]
      · have h1 : ¬ b = b' := by omega
        have h2 : ¬ b < b' := by omega
        cases f.asc <;> simp [h, h1, h2]

/-! ## Entries -/

/-- The columns of an entry are set and not NaN. -/
def okRow : List Field → Row → Bool
  | [], _ => true
  | f :: fs, some v :: r => okVal f v && okRow fs r
  | _, _ => false

/-- The columns that hold values hold values of their types that are not NaN. -/
def okCols : List Field → List FCol → Bool
  | f :: fs, .val v :: cs => okVal f v && okCols fs cs
  | _ :: fs, _ :: cs => okCols fs cs
  | _, _ => true

/-- The columns with their orders. -/
def withAsc (fs : List Field) (cs : List FCol) : List (FCol × Bool) := cs.zip (fs.map (·.asc))

theorem rd_drop {r : Row} {j : Nat} {v : Val} {t : Row} (h : r.drop j = some v :: t) :
    rd r j = v := by
  have h1 : r[j]? = some (some v) := by
    have : (r.drop j)[0]? = some (some v) := by rw [h]; rfl
    simpa using this
  simp [rd, List.getD_eq_getElem?_getD, h1]

theorem drop_succ' {r : Row} {j : Nat} {x : Option Val} {t : Row} (h : r.drop j = x :: t) :
    r.drop (j + 1) = t := by
  have : r.drop (j + 1) = (r.drop j).drop 1 := by rw [List.drop_drop]
  rw [this, h]; rfl

theorem okRow_cons {f : Field} {fs : List Field} {r : Row} (h : okRow (f :: fs) r = true) :
    ∃ v t, r = some v :: t ∧ okVal f v = true ∧ okRow fs t = true := by
  cases r with
  | nil => simp [okRow] at h
  | cons x t =>
    cases x with
    | none => simp [okRow] at h
    | some v =>
      rw [okRow, Bool.and_eq_true_iff] at h
      exact ⟨v, t, rfl, h.1, h.2⟩

theorem rk_sgn {a b : Int} (h : a ≤ b) : rk (sgn a) ≤ rk (sgn b) := by
  unfold sgn
  by_cases h1 : a < 0
  · simp [h1, rk]
  · have h2 : ¬ b < 0 := by omega
    rw [if_neg h1, if_neg h2]
    by_cases h3 : a = 0
    · rw [if_pos h3]
      by_cases h4 : b = 0
      · simp [h4]
      · simp [h4, rk]
    · have h4 : ¬ b = 0 := by omega
      simp [h3, h4]

/-- `cmpCol` along the order, in one column. -/
theorem side_le {f : Field} {v w k : Val} (hv : okVal f v = true) (hw : okVal f w = true)
    (hk : okVal f k = true) (h : cmpCol f (some v) (some w) < 0) :
    rk (side f.asc k v) ≤ rk (side f.asc k w) ∧
    ¬ (side f.asc k v = .eq ∧ side f.asc k w = .eq) := by
  rw [side_sgn hv hk, side_sgn hw hk]
  have e1 : ∀ c : Int, sgn c = .eq → c = 0 := by
    intro c hc
    unfold sgn at hc
    by_cases h1 : c < 0
    · simp [h1] at hc
    · by_cases h2 : c = 0
      · exact h2
      · simp [h1, h2] at hc
  have n1 := cmpCol_neg f (some w) (some k)
  have n2 := cmpCol_neg f (some v) (some k)
  constructor
  · by_cases hwk : cmpCol f (some w) (some k) < 0
    · have := cmpCol_trans h hwk
      simp [sgn, this, rk]
    · by_cases hwk0 : cmpCol f (some w) (some k) = 0
      · have := cmpCol_zero.1 hwk0
        rw [← this]
        have h2 : cmpCol f (some w) (some w) = 0 := cmpCol_zero.2 rfl
        rw [h2]
        simp [sgn, h, rk]
      · have : sgn (cmpCol f (some w) (some k)) = .gt := by simp [sgn, hwk, hwk0]
        rw [this]
        cases sgn (cmpCol f (some v) (some k)) <;> simp [rk]
  · intro ⟨a, b⟩
    have a' := cmpCol_zero.1 (e1 _ a)
    have b' := cmpCol_zero.1 (e1 _ b)
    rw [a', b'] at h
    have := cmpCol_zero (f := f) (x := some k) (y := some k) |>.2 rfl
    omega

/-- Entries in the order of the index lie one before the other for the fast path. -/
theorem lexLe_of_cmp : ∀ (fs : List Field) (cs : List FCol) (a b : Row) (j : Nat),
    (∀ f ∈ fs, f.ignored = false) → okCols fs cs = true →
    okRow fs (a.drop j) = true → okRow fs (b.drop j) = true →
    cmpRows fs (a.drop j) (b.drop j) ≤ 0 →
    LexLe (withAsc fs cs) j a b := by
  intro fs
  induction fs with
  | nil => intro cs a b j _ _ _ _ _; cases cs <;> simp [withAsc, LexLe]
  | cons f fs ih =>
    intro cs a b j hi hc ha hb h
    cases cs with
    | nil => simp [withAsc, LexLe]
    | cons c cs =>
      obtain ⟨v, ta, hra, hv, hta⟩ := okRow_cons ha
      obtain ⟨w, tb, hrb, hw, htb⟩ := okRow_cons hb
      have hif : ¬ f.ignored = true := by rw [hi f (List.mem_cons_self ..)]; simp
      cases c with
      | first => simp [withAsc, LexLe]
      | last => simp [withAsc, LexLe]
      | val k =>
        rw [okCols, Bool.and_eq_true_iff] at hc
        simp only [withAsc, List.map_cons, List.zip_cons_cons, LexLe]
        rw [rd_drop hra, rd_drop hrb]
        rw [hra, hrb] at h
        by_cases h0 : cmpCol f (some v) (some w) = 0
        · have hvw := cmpCol_zero.1 h0
          have hvw' : v = w := by simpa using hvw
          subst hvw'
          rw [cmpRows_same hif h0] at h
          refine ⟨Nat.le_refl _, fun _ _ => ?_⟩
          apply ih cs a b (j + 1) (fun g hg => hi g (List.mem_cons_of_mem _ hg)) hc.2
          · rw [drop_succ' hra]; exact hta
          · rw [drop_succ' hrb]; exact htb
          · rw [drop_succ' hra, drop_succ' hrb]; exact h
        · rw [cmpRows_diff hif h0] at h
          have := side_le hv hw hc.1 (by omega : cmpCol f (some v) (some w) < 0)
          exact ⟨this.1, fun x y => absurd ⟨x, y⟩ this.2⟩

/-! ## Keys that are rows or separators -/

/-- The values of a row or separator are of their types and not NaN (NULLs are allowed). -/
def okKeyRow : List Field → Row → Bool
  | f :: fs, some v :: r => okVal f v && okKeyRow fs r
  | _ :: fs, none :: r => okKeyRow fs r
  | _, _ => true

theorem fcmp_rowCols : ∀ (fs : List Field) (k r : Row) (j : Nat),
    (∀ f ∈ fs, f.ignored = false) → okKeyRow fs k = true → okRow fs (r.drop j) = true →
    fcmp (withAsc fs (rowCols fs k)) j r = sgn (cmpRows fs (r.drop j) k) := by
  intro fs
  induction fs with
  | nil => intro k r j _ _ _; simp [rowCols, withAsc, fcmp, cmpRows, sgn]
  | cons f fs ih =>
    intro k r j hi hk hr
    obtain ⟨v, t, hrt, hv, ht⟩ := okRow_cons hr
    have hif : ¬ f.ignored = true := by rw [hi f (List.mem_cons_self ..)]; simp
    cases k with
    | nil => simp [rowCols, withAsc, fcmp, hrt, cmpRows, sgn]
    | cons x k =>
      rw [hrt]
      cases x with
      | none =>
        have hne : ¬ cmpCol f (some v) none = 0 := fun h => by
          have := cmpCol_zero.1 h; cases this
        rw [cmpRows_diff hif hne]
        simp only [cmpCol, rowCols, withAsc, List.map_cons]
        cases f.nullfirst <;> simp [fcmp, sgn]
      | some w =>
        rw [okKeyRow, Bool.and_eq_true_iff] at hk
        simp only [rowCols, withAsc, List.map_cons, List.zip_cons_cons, fcmp]
        rw [rd_drop hrt, side_sgn hv hk.1]
        by_cases h0 : cmpCol f (some v) (some w) = 0
        · rw [cmpRows_same hif h0, h0]
          have hs : sgn 0 = .eq := by simp [sgn]
          rw [hs]
          have := ih k r (j + 1) (fun g hg => hi g (List.mem_cons_of_mem _ hg)) hk.2
            (by rw [drop_succ' hrt]; exact ht)
          rw [drop_succ' hrt] at this
          exact this
        · rw [cmpRows_diff hif h0]
          by_cases hlt : cmpCol f (some v) (some w) < 0
          · simp [sgn, hlt]
          · simp [sgn, hlt, h0]

theorem okCols_rowCols : ∀ (fs : List Field) (k : Row), okKeyRow fs k = true →
    okCols fs (rowCols fs k) = true := by
  intro fs
  induction fs with
  | nil => intro k _; simp [okCols]
  | cons f fs ih =>
    intro k h
    cases k with
    | nil => simp [rowCols, okCols]
    | cons x k =>
      cases x with
      | none =>
        simp only [okKeyRow] at h
        simp only [rowCols]
        cases f.nullfirst <;> simp [okCols, ih k h]
      | some v =>
        rw [okKeyRow, Bool.and_eq_true_iff] at h
        simp [rowCols, okCols, h.1, ih k h.2]

/-! ## Bounds -/

/-- What the comparator decides on columns the fast path does not look at: nothing, or the first
of them is unbounded above. -/
def tailOk : List Field → List VB → Bool
  | f :: fs, b :: bs => if f.ignored then tailOk fs bs else b.unb && !b.lower
  | _, _ => true

/-- A bound that the fast path, looking at `m` columns, treats as the comparator does: values are
inclusive but for a lower bound in the last column, and unbounded columns are ascending. -/
def safeB : List Field → Nat → List VB → Bool
  | fs, 0, bs => tailOk fs bs
  | f :: fs, m + 1, b :: bs =>
    if b.unb then f.asc
    else if b.isnull then true
    else if b.incl then safeB fs m bs
    else b.lower && m == 0
  | _, _, _ => true

/-- A value bound of a type has a value of the type. -/
def VB.typed (b : VB) : Bool :=
  match b.ty with
  | none => true
  | some t => b.value.hasTy t

/-- Not NaN. -/
def VB.noNan (b : VB) : Bool := b.unb || b.isnull || decide (b.value ≠ .nan)

theorem okCols_boundCols : ∀ (fs : List Field) (bs : List VB) (cs : List FCol),
    bs.all VB.typed = true → bs.all VB.noNan = true → boundCols fs bs = some cs →
    okCols fs cs = true := by
  intro fs
  induction fs with
  | nil => intro bs cs _ _ _; simp [okCols]
  | cons f fs ih =>
    intro bs cs h1 h2 h
    cases bs with
    | nil => simp only [boundCols, Option.some.injEq] at h; subst h; simp [okCols]
    | cons b bs =>
      rw [List.all_cons, Bool.and_eq_true_iff] at h1 h2
      simp only [boundCols] at h
      by_cases ht : b.ty ≠ some f.ty
      · rw [if_pos ht] at h; cases h
      · rw [if_neg ht] at h
        have ht' : b.ty = some f.ty := Decidable.byContradiction ht
        cases hr : boundCols fs bs with
        | none => rw [hr] at h; cases h
        | some cs' =>
          rw [hr] at h
          simp only [Option.map_some, Option.some.injEq] at h
          have hrec := ih bs cs' h1.2 h2.2 hr
          subst h
          by_cases hu : b.unb = true
          · rw [if_pos hu]
            by_cases hl : b.lower = f.asc
            · rw [if_pos hl]; simpa [okCols] using hrec
            · rw [if_neg hl]; simpa [okCols] using hrec
          · rw [if_neg hu]
            by_cases hn : b.isnull = true
            · rw [if_pos hn]
              by_cases hl : f.nullfirst = true
              · rw [if_pos hl]; simpa [okCols] using hrec
              · rw [if_neg hl]; simpa [okCols] using hrec
            · rw [if_neg hn]
              have hty : b.value.hasTy f.ty = true := by
                have := h1.1
                unfold VB.typed at this
                rw [ht'] at this
                exact this
              have hnn : decide (b.value ≠ .nan) = true := by
                have := h2.1
                unfold VB.noNan at this
                cases hx : b.unb <;> cases hy : b.isnull <;> simp_all
              simp only [okCols, okVal, hty, hnn, Bool.and_self, Bool.true_and]
              exact hrec

theorem cmpVal_val {f : Field} {b : VB} {v : Val} (hn : b.isnull = false) :
    cmpVal f b (some v) =
      if cmpCol f (some b.value) (some v) = 0 ∧ b.incl = false then cmpIncl b
      else cmpCol f (some b.value) (some v) := by
  simp only [cmpVal, hn, Bool.not_false, if_true, cmpCol]
  have key : ∀ c : Int, (if (c == 0 && !b.incl) = true then cmpIncl b else c)
      = if c = 0 ∧ b.incl = false then cmpIncl b else c := by
    intro c
    by_cases h0 : c = 0
    · cases hi : b.incl <;> simp [h0]
    · have : (c == 0) = false := by simpa using h0
      simp [h0, this]
  exact key _

theorem fcmp_boundCols : ∀ (fs : List Field) (m : Nat) (bs : List VB) (cs : List FCol)
    (r : Row) (j : Nat),
    (∀ f ∈ fs.take m, f.ignored = false) → bs.length = fs.length → m ≤ fs.length →
    bs.all VB.typed = true → bs.all VB.noNan = true →
    boundCols (fs.take m) bs = some cs → safeB fs m bs = true →
    okRow (fs.take m) (r.drop j) = true → Long fs (r.drop j) →
    (fcmp (withAsc (fs.take m) cs) j r ≠ .gt ↔ 0 ≤ cmpBnd 0 fs bs (r.drop j)) := by
  intro fs
  induction fs with
  | nil =>
    intro m bs cs r j _ _ _ _ _ h _ _ _
    simp only [List.take_nil, boundCols, Option.some.injEq] at h
    subst h
    simp [withAsc, fcmp, cmpBnd]
  | cons f fs ih =>
    intro m bs cs r j hi hl hm h1 h2 h hs hr hlong
    cases m with
    | zero =>
      simp only [List.take_zero, boundCols, Option.some.injEq] at h
      subst h
      have htail : ∀ (gs : List Field) (bs : List VB) (t : Row), tailOk gs bs = true →
          0 ≤ cmpBnd 0 gs bs t := by
        intro gs
        induction gs with
        | nil => intro bs t _; simp [cmpBnd]
        | cons g gs ih2 =>
          intro bs t ht
          cases bs with
          | nil => simp [cmpBnd]
          | cons b bs =>
            cases t with
            | nil => simp [cmpBnd]
            | cons y t =>
              simp only [tailOk] at ht
              simp only [cmpBnd]
              by_cases hg : g.ignored = true
              · rw [if_pos hg] at ht ⊢
                exact ih2 bs t ht
              · rw [if_neg hg] at ht ⊢
                rw [Bool.and_eq_true_iff] at ht
                rw [if_pos ht.1]
                have : b.lower = false := by simpa using ht.2
                rw [this]; simp
      have hb := htail (f :: fs) bs (r.drop j) (by simpa [safeB] using hs)
      simp only [List.take_zero, withAsc, List.map_nil, List.zip_nil_left, fcmp]
      constructor
      · intro _; exact hb
      · intro _; simp
    | succ m =>
      cases bs with
      | nil => simp at hl
      | cons b bs =>
        simp only [List.length_cons, Nat.add_right_cancel_iff] at hl
        simp only [List.length_cons] at hm
        rw [List.all_cons, Bool.and_eq_true_iff] at h1 h2
        simp only [List.take_succ_cons] at hi h hr ⊢
        obtain ⟨v, t, hrt, hv, ht⟩ := okRow_cons hr
        have hif : ¬ f.ignored = true := by rw [hi f (List.mem_cons_self ..)]; simp
        have hlong' : Long fs t := by
          unfold Long at *
          rw [hrt] at hlong
          simpa using hlong
        simp only [boundCols] at h
        by_cases hty : b.ty ≠ some f.ty
        · rw [if_pos hty] at h; cases h
        · rw [if_neg hty] at h
          have ht' : b.ty = some f.ty := Decidable.byContradiction hty
          cases hrb : boundCols (fs.take m) bs with
          | none => rw [hrb] at h; cases h
          | some cs' =>
            rw [hrb] at h
            simp only [Option.map_some, Option.some.injEq] at h
            subst h
            rw [hrt]
            simp only [cmpBnd, if_neg hif]
            simp only [safeB] at hs
            by_cases hu : b.unb = true
            · rw [if_pos hu] at hs
              simp only [hu, if_true, hs]
              cases hlo : b.lower <;> simp [withAsc, fcmp]
            · have hu' : b.unb = false := by simpa using hu
              rw [if_neg hu] at hs
              simp only [hu', Bool.false_eq_true, if_false]
              by_cases hn : b.isnull = true
              · simp only [hn, if_true, cmpVal, Bool.not_true, Bool.false_eq_true, if_false]
                cases f.nullfirst <;> simp [withAsc, fcmp]
              · have hn' : b.isnull = false := by simpa using hn
                rw [if_neg hn] at hs
                have hok : okVal f b.value = true := by
                  have e1 : b.value.hasTy f.ty = true := by
                    have := h1.1
                    unfold VB.typed at this
                    rw [ht'] at this
                    exact this
                  have e2 : decide (b.value ≠ .nan) = true := by
                    have := h2.1
                    unfold VB.noNan at this
                    simp_all
                  simp [okVal, e1, e2]
                simp only [hn', Bool.false_eq_true, if_false, withAsc, List.map_cons,
                  List.zip_cons_cons, fcmp]
                rw [rd_drop hrt, side_sgn hv hok, cmpVal_val hn']
                have hneg := cmpCol_neg f (some v) (some b.value)
                by_cases h0 : cmpCol f (some v) (some b.value) = 0
                · have h0' : cmpCol f (some b.value) (some v) = 0 := by omega
                  have hsg : sgn (cmpCol f (some v) (some b.value)) = .eq := by rw [h0]; simp [sgn]
                  rw [hsg]
                  by_cases hin : b.incl = true
                  · rw [if_pos hin] at hs
                    have hrec := ih m bs cs' r (j + 1)
                      (fun g hg => hi g (List.mem_cons_of_mem _ hg)) hl (by omega) h1.2 h2.2 hrb hs
                      (by rw [drop_succ' hrt]; exact ht) (by rw [drop_succ' hrt]; exact hlong')
                    rw [drop_succ' hrt] at hrec
                    simp only [h0', hin, Bool.true_eq_false, and_false, if_false, ne_eq,
                      not_true_eq_false]
                    exact hrec
                  · have hin' : b.incl = false := by simpa using hin
                    rw [if_neg hin, Bool.and_eq_true_iff] at hs
                    have hm0 : m = 0 := by simpa using hs.2
                    subst hm0
                    have hci : cmpIncl b = 1 := by simp [cmpIncl, hs.1, hin']
                    simp only [List.take_zero, boundCols, Option.some.injEq] at hrb
                    subst hrb
                    simp [h0', hin', hci, fcmp]
                · have h0' : ¬ cmpCol f (some b.value) (some v) = 0 := by omega
                  simp only [h0', false_and, if_false, ne_eq, not_false_eq_true, if_true]
                  by_cases hlt : cmpCol f (some v) (some b.value) < 0
                  · have hsg : sgn (cmpCol f (some v) (some b.value)) = .lt := by simp [sgn, hlt]
                    rw [hsg]
                    constructor
                    · intro _; omega
                    · intro _; simp
                  · have hsg : sgn (cmpCol f (some v) (some b.value)) = .gt := by
                      simp [sgn, hlt, h0]
                    rw [hsg]
                    constructor
                    · intro hx; simp at hx
                    · intro hx; omega

end Verif.Fastpath
