import Verif.SeqScan.Walk

/-!
# The walk: each key is in the range of one downlink
-/

namespace Verif.SeqScan

/-- How many of the ranges have a key. -/
def times (k : Nat) (rs : List Range) : Nat := rs.countP (fun r => r.has k)

theorem times_append (k : Nat) (a b : List Range) : times k (a ++ b) = times k a + times k b :=
  List.countP_append

theorem times_cons (k : Nat) (r : Range) (rs : List Range) :
    times k (r :: rs) = (if r.has k then 1 else 0) + times k rs := by
  unfold times; rw [List.countP_cons]; omega

theorem times_nil (k : Nat) : times k [] = 0 := rfl

/-- The ranges of the items of a page from one on. -/
def Page.rest (p : Page) (i : Nat) : List Range :=
  (List.range (p.count - i)).map (fun j => p.item (i + j))

theorem rest_cons {p : Page} {i : Nat} (h : i < p.count) : p.rest i = p.item i :: p.rest (i + 1) := by
  unfold Page.rest
  obtain ⟨n, hn⟩ : ∃ n, p.count - i = n + 1 := ⟨p.count - i - 1, by omega⟩
  rw [hn, List.range_succ_eq_map, show p.count - (i + 1) = n by omega]
  simp only [List.map_cons, List.map_map, Nat.add_zero]
  congr 1
  apply List.map_congr_left
  intro a _
  simp only [Function.comp]
  congr 1
  omega

theorem rest_nil {p : Page} {i : Nat} (h : p.count ≤ i) : p.rest i = [] := by
  unfold Page.rest
  rw [show p.count - i = 0 by omega]; rfl

theorem bound_end (p : Page) : p.bound p.count = p.high := by
  unfold Page.bound Page.count
  simp

theorem bound_inner {p : Page} {i : Nat} (h0 : 0 < i) (h : i < p.count) : ∃ x, p.bound i = some x := by
  unfold Page.bound
  have hlt : i - 1 < p.seps.length := by unfold Page.count at h; omega
  rw [if_neg (by omega), List.getElem?_eq_getElem hlt]
  exact ⟨_, rfl⟩

theorem ok_less {p : Page} (hp : p.ok = true) {i : Nat} (h : i < p.count) :
    less (p.bound i) (p.bound (i + 1)) = true := by
  unfold Page.ok at hp
  rw [List.all_eq_true] at hp
  exact hp i (List.mem_range.mpr h)

/-- A key below an inner bound is below the hikey. -/
theorem below_high {p : Page} (hp : p.ok = true) {k : Nat} :
    ∀ (n i : Nat), p.count - i = n → 0 < i → i < p.count → below (p.bound i) k = true → below p.high k = true := by
  intro n
  induction n with
  | zero => intro i h1 _ h2; omega
  | succ n ih =>
    intro i hn h0 hi hb
    obtain ⟨x, hx⟩ := bound_inner h0 hi
    have hl := ok_less hp hi
    have hb' : below (p.bound (i + 1)) k = true := by
      rw [hx] at hl hb
      cases hy : p.bound (i + 1) with
      | none => rfl
      | some y =>
        rw [hy] at hl
        simp only [less, below, decide_eq_true_eq] at *
        omega
    by_cases hl' : i + 1 < p.count
    · exact ih (i + 1) (by omega) (by omega) hl' hb'
    · have : i + 1 = p.count := by omega
      rw [this, bound_end] at hb'
      exact hb'

/-- The items of a page from one on cover each key from its key to the hikey once. -/
theorem times_rest {p : Page} (hp : p.ok = true) (k : Nat) :
    ∀ (n i : Nat), p.count - i = n → i < p.count →
      times k (p.rest i) = if above (p.bound i) k && below p.high k then 1 else 0 := by
  intro n
  induction n with
  | zero => intro i h1 h2; omega
  | succ n ih =>
    intro i hn hi
    rw [rest_cons hi, times_cons]
    by_cases hl : i + 1 < p.count
    · rw [ih (i + 1) (by omega) hl]
      obtain ⟨x, hx⟩ := bound_inner (Nat.succ_pos i) hl
      have hbh := below_high hp (k := k) _ (i + 1) rfl (by omega) hl
      have hless := ok_less hp hi
      have hit : (p.item i).has k = (above (p.bound i) k && decide (k < x)) := by
        simp only [Page.item, Range.has]
        rw [show p.bound (i + 1) = some x from hx]
        rfl
      rw [hit, show p.bound (i + 1) = some x from hx]
      rw [hx] at hbh hless
      have e2 : below (some x) k = decide (k < x) := rfl
      have e3 : above (some x) k = decide (x ≤ k) := rfl
      rw [e2] at hbh
      rw [e3]
      by_cases hk : k < x
      · have h1 := hbh (by simpa using hk)
        have h2 : ¬ x ≤ k := by omega
        simp [hk, h1, h2]
      · have h2 : x ≤ k := by omega
        have h3 : above (p.bound i) k = true := by
          cases hy : p.bound i with
          | none => rfl
          | some y =>
            rw [hy] at hless
            simp only [less, above, decide_eq_true_eq] at *
            omega
        simp [hk, h2, h3]
    · have he : i + 1 = p.count := by omega
      rw [rest_nil (by omega), times_nil]
      simp only [Page.item, Range.has, he, bound_end]
      omega

theorem mem_takeWhile_le {k : Nat} : ∀ (l : List Nat) (j : Nat), j < (l.takeWhile (fun x => decide (x ≤ k))).length →
    ∃ y, l[j]? = some y ∧ y ≤ k := by
  intro l
  induction l with
  | nil => intro j h; simp at h
  | cons a l ih =>
    intro j h
    by_cases ha : a ≤ k
    · rw [List.takeWhile_cons_of_pos (by simpa using ha)] at h
      cases j with
      | zero => exact ⟨a, rfl, ha⟩
      | succ j => exact ih j (by simpa using h)
    · rw [List.takeWhile_cons_of_neg (by simpa using ha)] at h
      simp at h

theorem after_takeWhile_le {k : Nat} : ∀ (l : List Nat) (y : Nat),
    l[(l.takeWhile (fun x => decide (x ≤ k))).length]? = some y → k < y := by
  intro l
  induction l with
  | nil => intro y h; simp at h
  | cons a l ih =>
    intro y h
    by_cases ha : a ≤ k
    · rw [List.takeWhile_cons_of_pos (by simpa using ha)] at h
      exact ih y (by simpa using h)
    · rw [List.takeWhile_cons_of_neg (by simpa using ha)] at h
      simp at h
      omega

theorem find_lt (p : Page) (k : Nat) : p.find k < p.count := by
  unfold Page.find Page.count
  have := (List.takeWhile_sublist (fun x => decide (x ≤ k)) (l := p.seps)).length_le
  omega

/-- The key is not below the key of the item found. -/
theorem find_above {p : Page} {h : Nat} (hl : above p.low h = true) : above (p.bound (p.find h)) h = true := by
  unfold Page.bound
  by_cases h0 : p.find h = 0
  · rw [if_pos h0]; exact hl
  · rw [if_neg h0]
    obtain ⟨y, hy, hle⟩ := mem_takeWhile_le (k := h) p.seps (p.find h - 1) (by unfold Page.find at *; omega)
    rw [hy]
    simpa [above] using hle

/-- The key is below that of the next item. -/
theorem find_below {p : Page} {h : Nat} (hh : below p.high h = true) : below (p.bound (p.find h + 1)) h = true := by
  unfold Page.bound
  rw [if_neg (by omega), Nat.add_sub_cancel]
  cases hy : p.seps[p.find h]? with
  | none => exact hh
  | some y =>
    have := after_takeWhile_le (k := h) p.seps y hy
    simpa [below] using this

/-- What is read by the iterator and the items from the one to begin with cover the keys from `h` to the
hikey. -/
theorem loadNext_times {h : Nat} {p : Page} {b : Buf} {rs : List Range} (hl : loadNext h p = some (b, rs)) (k : Nat) :
    b.page = p ∧ p.ok = true ∧ below p.high h = true ∧
      times k rs + times k (p.rest b.loc) = if h ≤ k ∧ below p.high k = true then 1 else 0 := by
  unfold loadNext at hl
  split at hl
  · rename_i hc
    simp only [Bool.and_eq_true] at hc
    obtain ⟨⟨hok, hlo⟩, hhi⟩ := hc
    have hlt := find_lt p h
    have hbel := find_below hhi
    dsimp only at hl
    split at hl
    · rename_i ha
      injection hl with hl
      injection hl with h1 h2
      subst h1 h2
      refine ⟨rfl, hok, hhi, ?_⟩
      rw [times_nil, times_rest hok k _ _ rfl hlt, ha]
      simp [above]
    · injection hl with hl
      injection hl with h1 h2
      subst h1 h2
      refine ⟨rfl, hok, hhi, ?_⟩
      simp only [times_cons, times_nil]
      by_cases hle : p.find h + 1 < p.count
      · rw [times_rest hok k _ _ rfl hle]
        obtain ⟨x, hx⟩ := bound_inner (Nat.succ_pos (p.find h)) hle
        have hbh := below_high hok (k := k) _ (p.find h + 1) rfl (by omega) hle
        rw [hx] at hbel hbh ⊢
        have e2 : below (some x) k = decide (k < x) := rfl
        have e3 : above (some x) k = decide (x ≤ k) := rfl
        have e4 : above (some h) k = decide (h ≤ k) := rfl
        have e5 : h < x := by simpa [below] using hbel
        simp only [Range.has, e3, e4]
        rw [e2] at hbh ⊢
        by_cases hk : k < x
        · have h1 := hbh (by simpa using hk)
          have h2 : ¬ x ≤ k := by omega
          by_cases h3 : h ≤ k <;> simp [hk, h1, h2, h3]
        · have h2 : x ≤ k := by omega
          have h3 : h ≤ k := by omega
          simp [hk, h2, h3]
      · have he : p.find h + 1 = p.count := by omega
        rw [he, bound_end, rest_nil (Nat.le_refl _), times_nil]
        simp [Range.has, above]
  · cases hl

/-- The item the walk begins with on a page found by a key, when it is not left out, has this key. -/
theorem loadNext_start {h : Nat} {p : Page} {b : Buf} {rs : List Range} (hl : loadNext h p = some (b, rs)) :
    b.prev = some h ∧ b.start ≤ b.loc ∧ (b.loc = b.start → p.bound b.start = some h) := by
  unfold loadNext at hl
  split at hl
  · dsimp only at hl
    split at hl
    · rename_i ha
      injection hl with hl
      injection hl with h1 h2
      subst h1
      exact ⟨rfl, Nat.le_refl _, fun _ => ha⟩
    · injection hl with hl
      injection hl with h1 h2
      subst h1
      exact ⟨rfl, Nat.le_succ _, fun he => absurd he (by simp)⟩
  · cases hl

end Verif.SeqScan
