import Verif.PageSplit.Model

/-! # Sizes: arithmetic -/

namespace Verif.PageSplit

theorem ma_le (n : Nat) : n ≤ ma n := by unfold ma; omega
theorem ma_lt (n : Nat) : ma n < n + 8 := by unfold ma; omega
theorem ma_dvd (n : Nat) : ma n % 8 = 0 := by unfold ma; omega
theorem ma_mono {a b : Nat} (h : a ≤ b) : ma a ≤ ma b := by unfold ma; omega
theorem ma_eq {n : Nat} (h : n % 8 = 0) : ma n = n := by unfold ma; omega
theorem ma_ma (n : Nat) : ma (ma n) = ma n := ma_eq (ma_dvd n)
theorem ma_max (a b : Nat) : ma (max a b) = max (ma a) (ma b) := by unfold ma; omega
theorem le_of_ma {a b : Nat} (h : a ≤ b) (hb : b % 8 = 0) : ma a ≤ b := by
  have := ma_mono h; rwa [ma_eq hb] at this

theorem arr_dvd (n : Nat) : arr n % 8 = 0 := ma_dvd _
theorem arr_mono {a b : Nat} (h : a ≤ b) : arr a ≤ arr b := ma_mono (by omega)
theorem arr_add (a b : Nat) : arr (a + b) ≤ arr a + arr b := by unfold arr ma; omega
theorem arr_zero : arr 0 = 0 := rfl
theorem arr_one : arr 1 = 8 := rfl
theorem arr_succ (n : Nat) : arr (n + 1) ≤ arr n + 8 := by unfold arr ma; omega
theorem arr_split (k n : Nat) (h : k < n) (h0 : 0 < n) :
    arr (k + 1) + arr (n - k) ≤ arr (n - 1) + 16 := by unfold arr ma; omega
theorem waste_eq (n : Nat) : arr n = 2 * n + waste (2 * n) := by unfold arr ma waste; omega
theorem waste_le (n : Nat) : waste n ≤ 7 := by unfold waste; omega

theorem itemHdr_dvd (l : Bool) : itemHdr l % 8 = 0 := by cases l <;> rfl
theorem itemHdr_pos (l : Bool) : 8 ≤ itemHdr l := by cases l <;> decide
theorem itemHdr_le (l : Bool) : itemHdr l ≤ 16 := by cases l <;> decide
theorem hikeysEnd_dvd (l : Bool) : hikeysEnd l % 8 = 0 := by cases l <;> rfl
theorem hikeysEnd_le (l : Bool) : hikeysEnd l ≤ 512 := by cases l <;> decide
theorem need_dvd (l : Bool) (t : Tup) : need l t % 8 = 0 := by
  have := itemHdr_dvd l; have := ma_dvd t.len; unfold need; omega
theorem need_pos (l : Bool) (t : Tup) : 8 ≤ need l t := by
  have := itemHdr_pos l; unfold need; omega

/-! ## Sums of sizes -/

theorem sizes_nil : sizes [] = 0 := rfl
theorem sizes_cons (x : Item) (l : List Item) : sizes (x :: l) = x.size + sizes l := rfl
theorem sizes_append (a b : List Item) : sizes (a ++ b) = sizes a + sizes b := by
  simp [sizes, List.map_append, List.sum_append]
theorem sizes_flatten (cs : List (List Item)) : sizes cs.flatten = (cs.map sizes).sum := by
  induction cs with
  | nil => rfl
  | cons c cs ih => simp [sizes_append, ih]

theorem sizes_dvd {l : List Item} (h : ∀ x ∈ l, x.size % 8 = 0) : sizes l % 8 = 0 := by
  induction l with
  | nil => rfl
  | cons x l ih =>
    have h1 := h x (by simp)
    have h2 := ih (fun y hy => h y (by simp [hy]))
    rw [sizes_cons]; omega

theorem sizes_reverse (l : List Item) : sizes l.reverse = sizes l := by
  induction l with
  | nil => rfl
  | cons x l ih => simp [sizes_append, sizes_cons, ih, sizes_nil, Nat.add_comm]

theorem chunkSizes_eq (cs : List (List Item)) :
    (cs.map chunkSize).sum = (cs.map (fun c => arr c.length)).sum + sizes cs.flatten := by
  induction cs with
  | nil => rfl
  | cons c cs ih =>
    simp only [List.map_cons, List.sum_cons, List.flatten_cons, sizes_append, ih, chunkSize]
    omega

theorem arr_chunks (cs : List (List Item)) :
    arr cs.flatten.length ≤ (cs.map (fun c => arr c.length)).sum := by
  induction cs with
  | nil => exact Nat.le_refl _
  | cons c cs ih =>
    simp only [List.flatten_cons, List.length_append, List.map_cons, List.sum_cons]
    have := arr_add c.length cs.flatten.length
    omega

/-- What is on a page fits on a page with a single chunk. -/
theorem Page.single_le (p : Page) :
    p.start + sizes p.items + arr p.items.length ≤ p.dataSize := by
  unfold Page.dataSize Page.items
  rw [chunkSizes_eq]
  have := arr_chunks p.chunks
  omega

/-! ## Reorganisation -/

theorem cutLoop_flatten (cut : Nat → Bool) (i left : Nat) (cur l : List Item) :
    (cutLoop cut i left cur l).flatten = cur.reverse ++ l := by
  induction l generalizing i left cur with
  | nil => simp [cutLoop]
  | cons x xs ih =>
    unfold cutLoop
    split
    · simp [ih]
    · simp [ih]

theorem cutLoop_ne (cut : Nat → Bool) (i left : Nat) (cur l : List Item) :
    cutLoop cut i left cur l ≠ [] := by
  induction l generalizing i left cur with
  | nil => simp [cutLoop]
  | cons x xs ih =>
    unfold cutLoop
    split
    · simp
    · exact ih _ _ _

/-- The chunks take no more room than what was left, up to the alignment of the last. -/
theorem cutLoop_size (cut : Nat → Bool) (i left : Nat) (cur l : List Item) :
    ((cutLoop cut i left cur l).map chunkSize).sum ≤
      2 * (cur.length + l.length) + left + 7 + sizes cur + sizes l := by
  induction l generalizing i left cur with
  | nil =>
    simp only [cutLoop, List.map_cons, List.map_nil, List.sum_cons, List.sum_nil, chunkSize,
      List.length_reverse, sizes_reverse, List.length_nil, sizes_nil]
    have h1 := waste_eq cur.length
    have h2 := waste_le (2 * cur.length)
    omega
  | cons x xs ih =>
    unfold cutLoop
    split
    · rename_i h
      have := ih (i + 1) (left - waste (2 * cur.length)) [x]
      have h1 := waste_eq cur.length
      simp only [List.map_cons, List.sum_cons, chunkSize, List.length_reverse, sizes_reverse,
        List.length_cons, sizes_cons, List.length_nil, sizes_nil] at this ⊢
      omega
    · have := ih (i + 1) left (x :: cur)
      simp only [List.length_cons, sizes_cons] at this ⊢
      omega

end Verif.PageSplit
