import Verif.PageSplit.Arith

/-! # The place of a split is found iff there is one -/

namespace Verif.PageSplit

/-- The first `k` items fit on the left page, the others on the right page. -/
def ValidSplit (s : SplitItems) (k : Nat) : Prop :=
  0 < k ∧ k < s.items.length ∧
  max (hikeysEnd s.leaf) (hdrSize + s.maxKeyLen) + sizes (s.items.take k) + arr k ≤ blck ∧
  max (hikeysEnd s.leaf) (hdrSize + s.hikeySize) + sizes (s.items.drop k) +
    arr (s.items.length - k) ≤ blck

instance (s : SplitItems) (k : Nat) : Decidable (ValidSplit s k) := by
  unfold ValidSplit; infer_instance

/-- What the first `k` items take on the left page. -/
def pre (ss : List Nat) (k : Nat) : Nat := (ss.take k).sum + arr k
/-- What the others take on the right page. -/
def suf (ss : List Nat) (k : Nat) : Nat := (ss.drop k).sum + arr (ss.length - k)

theorem sum_take_succ (ss : List Nat) (k : Nat) :
    (ss.take (k + 1)).sum = (ss.take k).sum + ss.getD k 0 := by
  induction ss generalizing k with
  | nil => simp
  | cons x xs ih =>
    cases k with
    | zero => simp
    | succ k => simp only [List.take_succ_cons, List.sum_cons, ih k, List.getD_cons_succ]; omega

theorem sum_drop_succ (ss : List Nat) (k : Nat) :
    (ss.drop k).sum = (ss.drop (k + 1)).sum + ss.getD k 0 := by
  induction ss generalizing k with
  | nil => simp
  | cons x xs ih =>
    cases k with
    | zero => simp; omega
    | succ k => simp only [List.drop_succ_cons, ih k, List.getD_cons_succ]

theorem pre_succ (ss : List Nat) (k : Nat) :
    (pre ss (k + 1) : Int) = pre ss k + (ss.getD k 0 + arr (k + 1) - arr k : Int) := by
  unfold pre; rw [sum_take_succ]; omega

theorem suf_pred (ss : List Nat) (k : Nat) (h : 0 < k) (hk : k ≤ ss.length) :
    (suf ss (k - 1) : Int) = suf ss k +
      (ss.getD (k - 1) 0 + arr (ss.length - k + 1) - arr (ss.length - k) : Int) := by
  unfold suf
  have h1 := sum_drop_succ ss (k - 1)
  have h2 : k - 1 + 1 = k := by omega
  have h3 : ss.length - (k - 1) = ss.length - k + 1 := by omega
  rw [h2] at h1
  rw [h1, h3]; omega

theorem pre_mono (ss : List Nat) {a b : Nat} (h : a ≤ b) : pre ss a ≤ pre ss b := by
  induction h with
  | refl => exact Nat.le_refl _
  | step _ ih =>
    rename_i m _
    have := pre_succ ss m
    have := arr_mono (Nat.le_succ m)
    simp only [Nat.succ_eq_add_one] at *
    omega

theorem suf_mono (ss : List Nat) {a b : Nat} (h : a ≤ b) (hb : b ≤ ss.length) :
    suf ss b ≤ suf ss a := by
  induction h with
  | refl => exact Nat.le_refl _
  | step _ ih =>
    rename_i m _
    have h1 := suf_pred ss (m + 1) (by omega) hb
    have h2 := arr_mono (Nat.le_succ (ss.length - (m + 1)))
    have h3 := ih (by omega)
    simp only [Nat.succ_eq_add_one, Nat.add_sub_cancel] at *
    omega

/-- What the loop knows: `lp`, `rp` are the rooms of the pages. -/
structure FInv (ss : List Nat) (lp rp l r : Int) (mn mx : Nat) : Prop where
  hmn : 0 < mn
  hle : mn ≤ mx
  hmx : mx < ss.length
  hpl : (pre ss mn : Int) ≤ lp
  hpr : (suf ss mx : Int) ≤ rp
  hl : (0 ≤ l ∧ l = lp - pre ss mn) ∨ (l < 0 ∧ lp < pre ss (mn + 1))
  hr : (0 ≤ r ∧ r = rp - suf ss mx) ∨ (r < 0 ∧ rp < suf ss (mx - 1))

theorem getD_pos {ss : List Nat} (h : ∀ x ∈ ss, 0 < x) {k : Nat} (hk : k < ss.length) :
    0 < ss.getD k 0 := by
  rw [List.getD_eq_getElem?_getD, List.getElem?_eq_getElem hk]
  exact h _ (List.getElem_mem _)

theorem FInv.left_full {ss : List Nat} (hp : ∀ x ∈ ss, 0 < x) {lp rp l r : Int} {mn mx : Nat}
    (i : FInv ss lp rp l r mn mx) (h : l ≤ 0) : lp < pre ss (mn + 1) := by
  rcases i.hl with ⟨h1, h2⟩ | h1
  · have := pre_succ ss mn
    have h3 := getD_pos hp (k := mn) (by have := i.hle; have := i.hmx; omega)
    have h4 := arr_mono (Nat.le_succ mn)
    simp only [Nat.succ_eq_add_one] at h4
    omega
  · exact h1.2

theorem FInv.right_full {ss : List Nat} (hp : ∀ x ∈ ss, 0 < x) {lp rp l r : Int} {mn mx : Nat}
    (i : FInv ss lp rp l r mn mx) (h : r ≤ 0) : rp < suf ss (mx - 1) := by
  have hm := i.hmn
  have hle := i.hle
  have hmx := i.hmx
  rcases i.hr with ⟨h1, h2⟩ | h1
  · have := suf_pred ss mx (by omega) (by omega)
    have h3 := getD_pos hp (k := mx - 1) (by omega)
    have h4 := arr_mono (Nat.le_succ (ss.length - mx))
    simp only [Nat.succ_eq_add_one] at h4
    omega
  · exact h1.2

/-- No place if both pages are full before the counts meet. -/
theorem FInv.none {ss : List Nat} (hp : ∀ x ∈ ss, 0 < x) {lp rp l r : Int} {mn mx : Nat}
    (i : FInv ss lp rp l r mn mx) (hl : l ≤ 0) (hr : r ≤ 0) (hne : mn ≠ mx) :
    ¬ ∃ k, k < ss.length ∧ (pre ss k : Int) ≤ lp ∧ (suf ss k : Int) ≤ rp := by
  rintro ⟨k, hk, h1, h2⟩
  have h3 := i.left_full hp hl
  have h4 := i.right_full hp hr
  have hle := i.hle
  have hmx := i.hmx
  have h5 : k ≤ mn := by
    apply Nat.le_of_not_lt
    intro hlt
    have := pre_mono ss (a := mn + 1) (b := k) hlt
    omega
  have h6 := suf_mono ss (a := k) (b := mx - 1) (by omega) (by omega)
  omega

/-- The measure of the loop. -/
def fMeas (l r : Int) (mn mx : Nat) : Nat :=
  (mx - mn) + (if 0 ≤ l then 1 else 0) + (if 0 ≤ r then 1 else 0)

theorem findLoop_spec {ss : List Nat} (hp : ∀ x ∈ ss, 0 < x) (t : Nat)
    (pick : Int → Int → Bool) (lp rp : Int) (f : Nat) :
    ∀ {l r : Int} {mn mx : Nat}, FInv ss lp rp l r mn mx → fMeas l r mn mx < f →
    match findLoop ss t pick f l r mn mx with
    | some k => 0 < k ∧ k < ss.length ∧ (pre ss k : Int) ≤ lp ∧ (suf ss k : Int) ≤ rp
    | none => ¬ ∃ k, k < ss.length ∧ (pre ss k : Int) ≤ lp ∧ (suf ss k : Int) ≤ rp := by
  induction f with
  | zero => intro l r mn mx _ h; omega
  | succ f ih =>
    intro l r mn mx i hm
    have hmn := i.hmn
    have hle := i.hle
    have hmx := i.hmx
    unfold findLoop
    by_cases he : mn = mx
    · rw [if_pos he]
      exact ⟨hmn, by omega, i.hpl, by rw [he]; exact i.hpr⟩
    · rw [if_neg he]
      by_cases hc : r ≤ 0 ∨
          (l > 0 ∧ (if t = 0 then pick l r else decide (mn < t)) = true)
      · rw [if_pos hc]
        by_cases hl0 : l ≤ 0
        · rw [if_pos hl0]
          have hr0 : r ≤ 0 := by
            rcases hc with h | h
            · exact h
            · exact absurd h.1 (by omega)
          exact i.none hp hl0 hr0 he
        · rw [if_neg hl0]
          dsimp only
          have hlv : l = lp - pre ss mn := by
            rcases i.hl with h | h
            · exact h.2
            · omega
          have hs := pre_succ ss mn
          by_cases hneg : l - (ss.getD mn 0 + arr (mn + 1) - arr mn : Int) < 0
          · rw [if_pos hneg]
            refine ih ⟨hmn, hle, hmx, i.hpl, i.hpr, .inr ⟨hneg, by omega⟩, i.hr⟩ ?_
            unfold fMeas at hm ⊢
            rw [if_pos (by omega)] at hm
            rw [if_neg (by omega)]
            omega
          · rw [if_neg hneg]
            refine ih ⟨by omega, by omega, hmx, by omega, i.hpr, .inl ⟨by omega, by omega⟩,
              i.hr⟩ ?_
            unfold fMeas at hm ⊢
            rw [if_pos (by omega)] at hm
            rw [if_pos (by omega)]
            omega
      · rw [if_neg hc]
        have hr0 : ¬ r ≤ 0 := fun h => hc (.inl h)
        rw [if_neg hr0]
        dsimp only
        have hrv : r = rp - suf ss mx := by
          rcases i.hr with h | h
          · exact h.2
          · omega
        have hs := suf_pred ss mx (by omega) (by omega)
        by_cases hneg : r - (ss.getD (mx - 1) 0 + arr (ss.length - mx + 1) -
            arr (ss.length - mx) : Int) < 0
        · rw [if_pos hneg]
          refine ih ⟨hmn, hle, hmx, i.hpl, i.hpr, i.hl, .inr ⟨hneg, by omega⟩⟩ ?_
          unfold fMeas at hm ⊢
          rw [if_pos (show 0 ≤ r by omega)] at hm
          rw [if_neg (show ¬ 0 ≤ r - (ss.getD (mx - 1) 0 + arr (ss.length - mx + 1) -
            arr (ss.length - mx) : Int) by omega)]
          omega
        · rw [if_neg hneg]
          refine ih ⟨hmn, by omega, by omega, i.hpl, by omega, i.hl,
            .inl ⟨by omega, by omega⟩⟩ ?_
          unfold fMeas at hm ⊢
          rw [if_pos (show 0 ≤ r by omega)] at hm
          rw [if_pos (show 0 ≤ r - (ss.getD (mx - 1) 0 + arr (ss.length - mx + 1) -
            arr (ss.length - mx) : Int) by omega)]
          omega

theorem pre_sizes (l : List Item) (k : Nat) :
    pre (l.map (·.size)) k = sizes (l.take k) + arr k := by
  unfold pre sizes; rw [List.map_take]

theorem suf_sizes (l : List Item) (k : Nat) :
    suf (l.map (·.size)) k = sizes (l.drop k) + arr (l.length - k) := by
  unfold suf sizes; rw [List.map_drop, List.length_map]

theorem findLocation_spec (s : SplitItems) (hp : ∀ x ∈ s.items, 0 < x.size) (t : Nat)
    (pick : Int → Int → Bool) :
    match findLocation s t pick with
    | some k => ValidSplit s k
    | none => ¬ ∃ k, ValidSplit s k := by
  have hp' : ∀ x ∈ s.items.map (·.size), 0 < x := by
    intro x hx
    obtain ⟨y, hy, rfl⟩ := List.mem_map.1 hx
    exact hp y hy
  unfold findLocation
  dsimp only
  rw [List.length_map]
  by_cases hn : s.items.length < 2
  · rw [if_pos hn]
    rintro ⟨k, h1, h2, _⟩
    omega
  · rw [if_neg hn]
    have hp1 := pre_succ (s.items.map (·.size)) 0
    have hp0 : pre (s.items.map (·.size)) 0 = 0 := rfl
    have ha0 : arr 0 = 0 := rfl
    rw [Nat.zero_add] at hp1
    have hs1 := suf_pred (s.items.map (·.size)) s.items.length (by omega) (by simp)
    have hs0 : suf (s.items.map (·.size)) s.items.length = 0 := by
      unfold suf
      rw [List.drop_eq_nil_of_le (by simp), List.length_map, Nat.sub_self]
      rfl
    rw [List.length_map, Nat.sub_self, Nat.zero_add] at hs1
    by_cases hneg : (blck - max (hikeysEnd s.leaf) (hdrSize + s.maxKeyLen) -
          (((s.items.map (·.size)).getD 0 0 : Nat) + (arr 1 : Nat)) : Int) < 0 ∨
        (blck - max (hikeysEnd s.leaf) (hdrSize + s.hikeySize) -
          (((s.items.map (·.size)).getD (s.items.length - 1) 0 : Nat) + (arr 1 : Nat)) : Int) < 0
    · rw [if_pos hneg]
      rintro ⟨k, h1, h2, h3, h4⟩
      rw [Nat.add_assoc, ← pre_sizes] at h3
      rw [Nat.add_assoc, ← suf_sizes] at h4
      have m1 := pre_mono (s.items.map (·.size)) (a := 1) (b := k) h1
      have m2 := suf_mono (s.items.map (·.size)) (a := k) (b := s.items.length - 1) (by omega)
        (by simp)
      rcases hneg with h | h <;> omega
    · rw [if_neg hneg]
      have hinv : FInv (s.items.map (·.size))
          (blck - max (hikeysEnd s.leaf) (hdrSize + s.maxKeyLen))
          (blck - max (hikeysEnd s.leaf) (hdrSize + s.hikeySize))
          (blck - max (hikeysEnd s.leaf) (hdrSize + s.maxKeyLen) -
            (((s.items.map (·.size)).getD 0 0 : Nat) + (arr 1 : Nat)))
          (blck - max (hikeysEnd s.leaf) (hdrSize + s.hikeySize) -
            (((s.items.map (·.size)).getD (s.items.length - 1) 0 : Nat) + (arr 1 : Nat)))
          1 (s.items.length - 1) := by
        refine ⟨by omega, by omega, by simp; omega, by omega, by omega, .inl ⟨by omega, by omega⟩,
          .inl ⟨by omega, by omega⟩⟩
      have := findLoop_spec hp' t pick _ _ (s.items.length + 3) hinv (by
        unfold fMeas
        split <;> split <;> omega)
      revert this
      split
      · intro h
        obtain ⟨h1, h2, h3, h4⟩ := h
        rw [pre_sizes] at h3
        rw [suf_sizes] at h4
        rw [List.length_map] at h2
        exact ⟨h1, h2, by omega, by omega⟩
      · intro h h'
        apply h
        obtain ⟨k, h1, h2, h3, h4⟩ := h'
        rw [Nat.add_assoc, ← pre_sizes] at h3
        rw [Nat.add_assoc, ← suf_sizes] at h4
        exact ⟨k, by simpa using h2, by omega, by omega⟩

end Verif.PageSplit
