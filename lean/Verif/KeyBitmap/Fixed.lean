import Verif.KeyBitmap.Chunk

/-!
# The fixed-key mode
-/

namespace Verif.KeyBitmap

/-- The number a string of bytes stands for, most significant byte first. -/
def value (k : List Nat) : Nat := k.foldl (fun n b => 256 * n + b) 0

/-- A key of the fixed mode: 24 bytes. -/
def IsKey (k : List Nat) : Prop := k.length = 24 ∧ ∀ b ∈ k, b < 256

theorem foldl_value (k : List Nat) (n : Nat) :
    k.foldl (fun n b => 256 * n + b) n = 256 ^ k.length * n + value k := by
  unfold value
  induction k generalizing n with
  | nil => simp
  | cons b k ih =>
    rw [List.foldl_cons, List.foldl_cons, ih, ih (256 * 0 + b), List.length_cons, Nat.pow_succ]
    grind

theorem value_cons (b : Nat) (k : List Nat) : value (b :: k) = 256 ^ k.length * b + value k := by
  show List.foldl _ _ (b :: k) = _
  rw [List.foldl_cons, foldl_value]
  congr 2
  omega

theorem value_lt (k : List Nat) (h : ∀ b ∈ k, b < 256) : value k < 256 ^ k.length := by
  induction k with
  | nil => simp [value]
  | cons b k ih =>
    rw [value_cons, List.length_cons, Nat.pow_succ]
    have h1 := h b (List.mem_cons_self ..)
    have h2 := ih (fun x hx => h x (List.mem_cons_of_mem _ hx))
    have h3 : 256 ^ k.length * b ≤ 256 ^ k.length * 255 := Nat.mul_le_mul_left _ (by omega)
    omega

theorem pow_step (p a b x y : Nat) (hab : a < b) (hx : x < p) : p * a + x < p * b + y := by
  have : p * (a + 1) ≤ p * b := Nat.mul_le_mul_left _ (by omega)
  rw [Nat.mul_add] at this
  omega

theorem memLt_iff (a b : List Nat) (hl : a.length = b.length) (ha : ∀ x ∈ a, x < 256)
    (hb : ∀ x ∈ b, x < 256) : memLt a b = true ↔ value a < value b := by
  induction a generalizing b with
  | nil =>
    cases b with
    | nil => simp [memLt]
    | cons y b => simp at hl
  | cons x a ih =>
    cases b with
    | nil => simp at hl
    | cons y b =>
      have hl' : a.length = b.length := by simpa using hl
      have ha' := fun z hz => ha z (List.mem_cons_of_mem x hz)
      have hb' := fun z hz => hb z (List.mem_cons_of_mem y hz)
      have h1 := value_lt a ha'
      have h2 := value_lt b hb'
      rw [value_cons, value_cons]
      unfold memLt
      rw [hl'] at h1 ⊢
      by_cases c1 : x < y
      · rw [if_pos c1]
        have := pow_step (256 ^ b.length) x y _ (value b) c1 h1
        simp [this]
      · rw [if_neg c1]
        by_cases c2 : y < x
        · rw [if_pos c2]
          have := pow_step (256 ^ b.length) y x _ (value a) c2 h2
          simp only [Bool.false_eq_true, false_iff]
          omega
        · have : x = y := by omega
          subst this
          rw [if_neg c2, ih b hl' ha' hb']
          omega

theorem value_inj {a b : List Nat} (hl : a.length = b.length) (ha : ∀ x ∈ a, x < 256)
    (hb : ∀ x ∈ b, x < 256) (h : value a = value b) : a = b := by
  induction a generalizing b with
  | nil =>
    cases b with
    | nil => rfl
    | cons y b => simp at hl
  | cons x a ih =>
    cases b with
    | nil => simp at hl
    | cons y b =>
      have hl' : a.length = b.length := by simpa using hl
      have ha' := fun z hz => ha z (List.mem_cons_of_mem x hz)
      have hb' := fun z hz => hb z (List.mem_cons_of_mem y hz)
      have h1 := value_lt a ha'
      have h2 := value_lt b hb'
      rw [value_cons, value_cons] at h
      rw [hl'] at h1 h
      rcases Nat.lt_trichotomy x y with c | c | c
      · have := pow_step (256 ^ b.length) x y _ (value b) c h1; omega
      · subst c
        rw [ih hl' ha' hb' (by omega)]
      · have := pow_step (256 ^ b.length) y x _ (value a) c h2; omega

theorem key_lt {a b : List Nat} (ha : IsKey a) (hb : IsKey b) :
    memLt a b = true ↔ value a < value b :=
  memLt_iff a b (ha.1.trans hb.1.symm) ha.2 hb.2

theorem memLt_irrefl (a : List Nat) : memLt a a = false := by
  induction a with
  | nil => rfl
  | cons x a ih => simp [memLt, ih]

theorem memOrder : Order memLt IsKey where
  irrefl := memLt_irrefl
  trans a b c ha hb hc h1 h2 := by
    rw [key_lt ha hb] at h1; rw [key_lt hb hc] at h2; rw [key_lt ha hc]; omega
  total a b ha hb h1 h2 := by
    rw [Bool.eq_false_iff, ne_eq, key_lt ha hb] at h2
    rw [key_lt hb ha]
    have : value a ≠ value b := fun e => h1 (value_inj (ha.1.trans hb.1.symm) ha.2 hb.2 e)
    omega

/-- Membership. -/
def hasF (t : List (List Nat × Unit)) (k : List Nat) : Bool := (find k t).isSome

/-- The invariant of a bitmap. -/
structure FInv (bm : Fm) : Prop where
  tree : Sorted memLt IsKey bm.tree
  fin : bm.finalized = true → bm.fkeys = bm.tree.map (·.1)

theorem hasF_key {bm : Fm} (h : FInv bm) {k : List Nat} (hk : hasF bm.tree k = true) : IsKey k := by
  obtain ⟨e, he, rfl⟩ := List.mem_map.1 (find_isSome.1 hk)
  exact h.tree.2 e he

theorem addF {t : List (List Nat × Unit)} (h : Sorted memLt IsKey t) {k : List Nat} (hk : IsKey k) :
    Sorted memLt IsKey (if find k t = none then set memLt k () t else t) ∧
    ∀ w, hasF (if find k t = none then set memLt k () t else t) w = (hasF t w || decide (w = k)) := by
  split
  · refine ⟨sorted_set memOrder h hk, ?_⟩
    intro w
    unfold hasF
    rw [find_set]
    by_cases e : w = k <;> simp [e]
  · rename_i hf
    refine ⟨h, ?_⟩
    intro w
    by_cases e : w = k
    · subst e
      unfold hasF
      cases hx : find w t with
      | none => exact absurd hx hf
      | some u => simp
    · simp [e]

theorem insertF_spec {bm : Fm} (h : FInv bm) {k : List Nat} (hk : IsKey k) :
    FInv (insertF bm k) ∧
    ∀ w, hasF (insertF bm k).tree w = (hasF bm.tree w || decide (w = k)) :=
  ⟨⟨(addF h.tree hk).1, by simp [insertF]⟩, (addF h.tree hk).2⟩

theorem emitF_spec {bm : Fm} (h : FInv bm) {k : List Nat} (hk : IsKey k) :
    FInv (emitF bm k).1 ∧
    (∀ w, hasF (emitF bm k).1.tree w = (hasF bm.tree w || decide (w = k))) ∧
    (emitF bm k).2 = !hasF bm.tree k := by
  have := addF h.tree hk
  unfold emitF
  by_cases hf : find k bm.tree = none
  · rw [if_pos hf] at this ⊢
    exact ⟨⟨this.1, by simp⟩, this.2, by simp [hasF, hf]⟩
  · rw [if_neg hf] at this ⊢
    refine ⟨h, this.2, ?_⟩
    unfold hasF
    cases hx : find k bm.tree with
    | none => exact absurd hx hf
    | some u => rfl

theorem isEmptyF_spec {bm : Fm} (h : FInv bm) :
    isEmptyF bm = true ↔ ∀ k, IsKey k → hasF bm.tree k = false := by
  unfold isEmptyF
  cases ht : bm.tree with
  | nil => simp [hasF, find]
  | cons e t =>
    obtain ⟨k, u⟩ := e
    constructor
    · intro h; cases h
    · intro hn
      have hk : IsKey k := h.tree.2 (k, u) (by rw [ht]; exact List.mem_cons_self ..)
      have := hn k hk
      simp [hasF, find] at this

theorem foldl_unionF (l : List (List Nat × Unit)) : ∀ {t : List (List Nat × Unit)},
    Sorted memLt IsKey t → (∀ e ∈ l, IsKey e.1) →
    Sorted memLt IsKey (l.foldl (fun t e => if find e.1 t = none then set memLt e.1 () t else t) t) ∧
    ∀ w, hasF (l.foldl (fun t e => if find e.1 t = none then set memLt e.1 () t else t) t) w =
      (hasF t w || l.any (fun e => decide (w = e.1))) := by
  induction l with
  | nil => intro t h _; exact ⟨h, by simp⟩
  | cons e l ih =>
    intro t h hl
    obtain ⟨hi, hm⟩ := addF h (hl e (List.mem_cons_self ..))
    obtain ⟨hi', hm'⟩ := ih hi (fun e he => hl e (List.mem_cons_of_mem _ he))
    refine ⟨hi', ?_⟩
    intro w
    rw [List.foldl_cons, hm', hm, List.any_cons, Bool.or_assoc]

theorem any_hasF (t : List (List Nat × Unit)) (w : List Nat) :
    t.any (fun e => decide (w = e.1)) = hasF t w := by
  rw [Bool.eq_iff_iff, List.any_eq_true]
  show _ ↔ (find w t).isSome = true
  rw [find_isSome, List.mem_map]
  constructor
  · rintro ⟨e, he, hx⟩; exact ⟨e, he, (of_decide_eq_true hx).symm⟩
  · rintro ⟨e, he, hx⟩; exact ⟨e, he, by simp [hx]⟩

theorem unionF_spec {a b : Fm} (ha : FInv a) (hb : FInv b) :
    FInv (unionF a b) ∧ ∀ w, hasF (unionF a b).tree w = (hasF a.tree w || hasF b.tree w) := by
  have := foldl_unionF b.tree ha.tree hb.tree.2
  refine ⟨⟨this.1, by simp [unionF]⟩, ?_⟩
  intro w
  have h := this.2 w
  rw [any_hasF] at h
  exact h

theorem intersectF_spec {a b : Fm} (ha : FInv a) (hb : FInv b) :
    FInv (intersectF a b) ∧
    ∀ w, hasF (intersectF a b).tree w = (hasF a.tree w && hasF b.tree w) := by
  refine ⟨⟨sorted_foldl_delete _ ha.tree, by simp [intersectF]⟩, ?_⟩
  intro w
  show (find w (((a.tree.filter (fun e => decide (find e.1 b.tree = none))).map (·.1)).foldl
    (fun t k => delete k t) a.tree)).isSome = ((find w a.tree).isSome && (find w b.tree).isSome)
  rw [find_foldl_delete]
  by_cases hw : (find w a.tree).isSome = true
  · have hm : w ∈ (a.tree.filter (fun e => decide (find e.1 b.tree = none))).map (·.1) ↔
        find w b.tree = none := by
      constructor
      · intro h
        obtain ⟨e, he, rfl⟩ := List.mem_map.1 h
        exact of_decide_eq_true (List.mem_filter.1 he).2
      · intro h
        obtain ⟨e, he, rfl⟩ := List.mem_map.1 (find_isSome.1 hw)
        exact List.mem_map.2 ⟨e, List.mem_filter.2 ⟨he, by simpa using h⟩, rfl⟩
    simp only [hm, hw, Bool.true_and]
    cases hb : find w b.tree with
    | none => rfl
    | some u => simp [hw]
  · have : find w a.tree = none := by
      cases hx : find w a.tree with
      | none => rfl
      | some u => rw [hx] at hw; simp at hw
    simp [this]

theorem finalizeF_tree (bm : Fm) : (finalizeF bm).tree = bm.tree := by
  unfold finalizeF; split <;> rfl

theorem finalizeF_keys {bm : Fm} (h : FInv bm) : (finalizeF bm).fkeys = bm.tree.map (·.1) := by
  unfold finalizeF
  split
  · rename_i hf; exact h.fin hf
  · rfl

theorem finalizeF_inv {bm : Fm} (h : FInv bm) : FInv (finalizeF bm) :=
  ⟨by rw [finalizeF_tree]; exact h.tree, fun _ => by rw [finalizeF_keys h, finalizeF_tree]⟩

/-- What the search finds. -/
theorem seekF_spec {bm : Fm} (h : FInv bm) (x : List Nat) (hx : IsKey x) :
    ∃ r, lowerBound (finalizeF bm).fkeys (fun c => memLt c x) (finalizeF bm).fkeys.length 0
        (finalizeF bm).fkeys.length = some r ∧
      ((r ≥ (finalizeF bm).fkeys.length ∧ ∀ k, hasF bm.tree k = true → value k < value x) ∨
       ∃ k, r < (finalizeF bm).fkeys.length ∧ (finalizeF bm).fkeys[r]? = some k ∧
        hasF bm.tree k = true ∧ value x ≤ value k ∧
        ∀ w, hasF bm.tree w = true → value x ≤ value w → value k ≤ value w) := by
  rw [finalizeF_keys h]
  have hs : (bm.tree.map (·.1)).Pairwise (fun a b => memLt a b = true) := by
    rw [List.pairwise_map]; exact h.tree.1
  have hok : ∀ a ∈ bm.tree.map (·.1), IsKey a := by
    intro a ha
    obtain ⟨e, he, rfl⟩ := List.mem_map.1 ha
    exact h.tree.2 e he
  obtain ⟨r, h1, h2, h3, h4⟩ := lowerBound_drop memOrder (bm.tree.map (·.1)) x hs hok hx
  refine ⟨r, h1, ?_⟩
  have hsplit : ∀ k, hasF bm.tree k = true →
      k ∈ (bm.tree.map (·.1)).take r ∨ k ∈ (bm.tree.map (·.1)).drop r := by
    intro k hk
    have : k ∈ bm.tree.map (·.1) := find_isSome.1 hk
    rw [← List.take_append_drop r (bm.tree.map (·.1)), List.mem_append] at this
    exact this
  by_cases hr : r < (bm.tree.map (·.1)).length
  · right
    have hd : (bm.tree.map (·.1)).drop r =
        (bm.tree.map (·.1))[r] :: (bm.tree.map (·.1)).drop (r + 1) := List.drop_eq_getElem_cons hr
    have hsd := hs.drop (i := r)
    rw [hd, List.pairwise_cons] at hsd
    have hk : IsKey (bm.tree.map (·.1))[r] := hok _ (List.getElem_mem ..)
    refine ⟨(bm.tree.map (·.1))[r], hr, List.getElem?_eq_getElem hr,
      find_isSome.2 (List.getElem_mem ..), ?_, ?_⟩
    · have := h4 _ (by rw [hd]; exact List.mem_cons_self ..)
      rw [Bool.eq_false_iff, ne_eq, key_lt hk hx] at this
      omega
    · intro w hw hge
      have hwk := hasF_key h hw
      rcases hsplit w hw with hm | hm
      · have := h3 w hm
        rw [key_lt hwk hx] at this
        omega
      · rw [hd] at hm
        rcases List.mem_cons.1 hm with e | e
        · rw [e]; exact Nat.le_refl _
        · have := hsd.1 w e
          rw [key_lt hk hwk] at this
          omega
  · left
    refine ⟨by omega, ?_⟩
    intro k hk
    have hkk := hasF_key h hk
    rcases hsplit k hk with hm | hm
    · have := h3 k hm
      rw [key_lt hkk hx] at this
      exact this
    · rw [List.drop_eq_nil_of_le (by omega)] at hm
      cases hm

theorem rangeF_spec {bm : Fm} (h : FInv bm) {low high : List Nat} (hl : IsKey low)
    (hh : IsKey high) :
    FInv (rangeIsValidF bm low high).1 ∧ (rangeIsValidF bm low high).1.tree = bm.tree ∧
    ∃ r, (rangeIsValidF bm low high).2 = some r ∧
      (r = true ↔ ∃ k, hasF bm.tree k = true ∧ value low ≤ value k ∧ value k < value high) := by
  unfold rangeIsValidF
  by_cases hc : memLt low high = true
  · rw [if_pos hc]
    refine ⟨finalizeF_inv h, finalizeF_tree bm, ?_⟩
    obtain ⟨r, h1, h2⟩ := seekF_spec h low hl
    simp only [h1, Option.bind_some]
    rcases h2 with ⟨h2, h3⟩ | ⟨k, h2, h3, h4, h5, h6⟩
    · rw [if_pos h2]
      refine ⟨false, rfl, ?_⟩
      simp only [Bool.false_eq_true, false_iff]
      rintro ⟨k, a, b, _⟩
      have := h3 k a
      omega
    · rw [if_neg (by omega), h3]
      refine ⟨memLt k high, rfl, ?_⟩
      rw [key_lt (hasF_key h h4) hh]
      constructor
      · intro hlt; exact ⟨k, h4, h5, hlt⟩
      · rintro ⟨w, a, b, c⟩
        have := h6 w a b
        omega
  · rw [if_neg hc]
    refine ⟨h, rfl, false, rfl, ?_⟩
    rw [key_lt hl hh] at hc
    simp only [Bool.false_eq_true, false_iff]
    rintro ⟨k, _, a, b⟩
    omega

theorem nextF_spec {bm : Fm} (h : FInv bm) {prev : List Nat} (hp : IsKey prev) :
    FInv (getNextF bm prev).1 ∧ (getNextF bm prev).1.tree = bm.tree ∧
    ∃ r, (getNextF bm prev).2 = some r ∧
      (r = none → ∀ k, hasF bm.tree k = true → value k < value prev) ∧
      (∀ x, r = some x → hasF bm.tree x = true ∧ value prev ≤ value x ∧
        ∀ k, hasF bm.tree k = true → value prev ≤ value k → value x ≤ value k) := by
  unfold getNextF
  refine ⟨finalizeF_inv h, finalizeF_tree bm, ?_⟩
  obtain ⟨r, h1, h2⟩ := seekF_spec h prev hp
  simp only [h1, Option.bind_some]
  rcases h2 with ⟨h2, h3⟩ | ⟨k, h2, h3, h4, h5, h6⟩
  · rw [if_pos h2]
    exact ⟨none, rfl, fun _ => h3, by intro x hx; cases hx⟩
  · rw [if_neg (by omega), h3]
    refine ⟨some k, rfl, (by intro hx; cases hx), ?_⟩
    intro x hx
    cases hx
    exact ⟨h4, h5, h6⟩

theorem createF_inv : FInv createF :=
  ⟨⟨List.Pairwise.nil, by intro e he; cases he⟩, by intro h; cases h⟩

end Verif.KeyBitmap
