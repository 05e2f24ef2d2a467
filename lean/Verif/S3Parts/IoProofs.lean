import Verif.S3Parts.Io

/-! # Reads and writes of data files in S3 mode: proofs -/

namespace Verif.S3Parts.Io

/-- The pieces follow each other without gaps, and are together the range. -/
def Tiles : Nat → Nat → List (Nat × Nat) → Prop
  | _, amount, [] => amount = 0
  | off, amount, (o, l) :: r => o = off ∧ 0 < l ∧ l ≤ amount ∧ Tiles (off + l) (amount - l) r

theorem div_same {g off a : Nat} (h : off % g + a < g) : (off + a) / g = off / g := by
  have h0 := Nat.div_add_mod off g
  have hg : 0 < g := by omega
  have : off + a = g * (off / g) + (off % g + a) := by omega
  rw [this, Nat.mul_add_div hg, Nat.div_eq_of_lt h]
  rfl

theorem div_next {g off : Nat} (hg : 0 < g) : (off + (g - off % g)) / g = off / g + 1 := by
  have h0 := Nat.div_add_mod off g
  have h1 := Nat.mod_lt off hg
  have : off + (g - off % g) = g * (off / g) + g * 1 := by omega
  rw [this, Nat.mul_add_div hg, Nat.mul_div_cancel_left _ hg]

theorem mod_next {g off : Nat} (hg : 0 < g) : (off + (g - off % g)) % g = 0 := by
  have h0 := Nat.div_add_mod off g
  have h1 := Nat.mod_lt off hg
  have : off + (g - off % g) = g * (off / g + 1) := by rw [Nat.mul_add]; omega
  rw [this, Nat.mul_mod_right]

theorem mod_of_same {g off a : Nat} (hg : 0 < g) (h : (off + a) / g = off / g) : off % g + a < g := by
  have h0 := Nat.div_add_mod off g
  have h1 := Nat.div_add_mod (off + a) g
  have h2 := Nat.mod_lt (off + a) hg
  rw [h] at h1
  omega

theorem pieces_tile {g : Nat} (hg : 0 < g) : ∀ (fuel off amount : Nat), amount ≤ fuel →
    Tiles off amount (pieces g fuel off amount).1 ∧
    ∀ x ∈ (pieces g fuel off amount).1, (x.1 + x.2 - 1) / g = x.1 / g := by
  intro fuel
  induction fuel with
  | zero =>
    intro off amount h
    refine ⟨by simp only [pieces, Tiles]; omega, ?_⟩
    intro x hx
    simp [pieces] at hx
  | succ fuel ih =>
    intro off amount h
    have hm := Nat.mod_lt off hg
    rw [pieces]
    split
    · rename_i h0
      refine ⟨by simp only [Tiles]; exact h0, ?_⟩
      intro x hx
      simp at hx
    · rename_i h0
      split
      · rename_i h1
        refine ⟨⟨rfl, by omega, Nat.le_refl _, Nat.sub_self _⟩, ?_⟩
        intro x hx
        simp only [List.mem_singleton] at hx
        subst hx
        have := mod_of_same hg h1
        dsimp only
        have h2 : off + amount - 1 = off + (amount - 1) := by omega
        rw [h2]
        exact div_same (by omega)
      · rename_i h1
        have h2 : g - off % g ≤ amount := by
          apply Nat.le_of_not_lt
          intro hlt
          exact h1 (div_same (by omega))
        have ⟨i1, i2⟩ := ih (off + (g - off % g)) (amount - (g - off % g)) (by omega)
        refine ⟨?_, ?_⟩
        · simp only [Tiles]
          exact ⟨trivial, by omega, h2, i1⟩
        · intro x hx
          simp only [List.mem_cons] at hx
          rcases hx with hx | hx
          · subst hx
            dsimp only
            have h3 : off + (g - off % g) - 1 = off + (g - off % g - 1) := by omega
            rw [h3]
            exact div_same (by omega)
          · exact i2 x hx

theorem part_val : part = 1048576 := rfl
theorem seg_val : seg = 1073741824 := rfl
theorem blk_val : blk = 8192 := rfl
theorem num_val : numValues = 1024 := by decide

theorem touches_inside {off amount k : Nat} (h : off % part + amount ≤ part) (ht : touches off amount k) :
    k = off / part := by
  obtain ⟨x, h1, h2, h3⟩ := ht
  rw [part_val] at *
  omega

theorem sched_first (off amount : Nat) : off / part ∈ scheduled off amount := by
  unfold scheduled
  dsimp only
  split <;> simp

/-- What is left of `amount` if the range crosses the end of a part. -/
theorem pieces_left {off amount : Nat} (h : off % part + amount > part) (hs : amount ≤ part) :
    (pieces part amount off amount).2 = amount - (part - off % part) := by
  cases amount with
  | zero => rw [part_val] at *; omega
  | succ a =>
    rw [pieces, if_neg (by omega)]
    have hm : off % part < part := Nat.mod_lt off (by decide)
    rw [if_neg (fun hc => by have := mod_of_same (by decide) hc; omega)]
    dsimp only
    cases a with
    | zero => omega
    | succ b =>
      rw [pieces, if_neg (by omega), if_pos]
      apply div_same
      rw [mod_next (by decide)]
      omega

theorem sched_second {off amount : Nat} (h : off % part + amount > part) (hs : amount ≤ part) :
    off / part + 1 ∈ scheduled off amount ↔ part - off % part < amount - (part - off % part) := by
  unfold scheduled
  rw [pieces_left h hs]
  dsimp only
  have hm : off % part < part := Nat.mod_lt off (by decide)
  have hnn : (0 : Int) ≤ (off : Int) + ((amount - (part - off % part) : Nat) : Int) - 1 := by omega
  rw [Int.tdiv_eq_ediv_of_nonneg hnn]
  rw [part_val] at *
  constructor
  · intro hmem
    split at hmem
    · rename_i hne
      simp only [List.mem_cons, List.not_mem_nil, or_false] at hmem
      rcases hmem with hmem | hmem <;> omega
    · simp only [List.mem_cons, List.not_mem_nil, or_false] at hmem
      omega
  · intro hlt
    rw [if_pos (by omega)]
    simp only [List.mem_cons, List.not_mem_nil, or_false]
    right
    omega

theorem loads_iff : ∀ (fuel off size : Nat), 0 < size → size ≤ fuel → ∀ k, k ∈ loads fuel off size ↔ touches off size k := by
  intro fuel
  induction fuel with
  | zero => intro off size h0 h1; omega
  | succ fuel ih =>
    intro off size h0 h1 k
    rw [loads]
    have hm : off % part < part := Nat.mod_lt off (by decide)
    split
    · rename_i hgt
      rw [List.mem_cons, ih _ _ (by omega) (by omega)]
      unfold touches
      constructor
      · rintro (hk | ⟨x, h2, h3, h4⟩)
        · exact ⟨off, Nat.le_refl _, by omega, hk.symm⟩
        · exact ⟨x, by omega, by omega, h4⟩
      · rintro ⟨x, h2, h3, h4⟩
        by_cases hx : x < off + (part - off % part)
        · left
          rw [part_val] at *
          omega
        · right
          exact ⟨x, by omega, by omega, h4⟩
    · rename_i hle
      simp only [List.mem_singleton]
      constructor
      · intro hk
        exact ⟨off, Nat.le_refl _, by omega, hk.symm⟩
      · intro ht
        exact touches_inside (by omega) ht

theorem counted_eq {t off len : Nat} (ht : 0 < t) (hl : len ≤ t) :
    (off + len + t - 1) / t = (off + t - 1) / t + counted t off len := by
  unfold counted
  have h1 : off + len + t - 1 = off + t - 1 + len := by omega
  rw [h1]
  have h2 : (off + t - 1) / t ≤ (off + t - 1 + len) / t := Nat.div_le_div_right (by omega)
  have h3 : (off + t - 1 + len) / t ≤ (off + t - 1 + t) / t := Nat.div_le_div_right (by omega)
  rw [Nat.add_div_right _ ht] at h3
  split <;> omega

theorem countAll_eq {t : Nat} (ht : 0 < t) : ∀ (ls : List Nat) (off : Nat), (∀ l ∈ ls, l ≤ t) →
    (countAll t off ls).2 = off + ls.sum ∧
    (off + ls.sum + t - 1) / t = (off + t - 1) / t + (countAll t off ls).1 := by
  intro ls
  induction ls with
  | nil => intro off _; simp [countAll]
  | cons l ls ih =>
    intro off h
    have ⟨i1, i2⟩ := ih (off + l) (fun x hx => h x (List.mem_cons_of_mem _ hx))
    have hc := counted_eq (off := off) ht (h l List.mem_cons_self)
    simp only [countAll, List.sum_cons]
    refine ⟨by rw [i1]; omega, ?_⟩
    rw [← Nat.add_assoc off l ls.sum, i2, hc]
    omega

theorem zeroes_part {d i : Nat} (hd : d ≤ seg) (h : i * part < d) :
    ∃ off len, zeroes (blk + d) i = .bytes off len ∧
      ∀ x, (off ≤ x ∧ x < off + len) ↔ (ofPart i x ∧ x < blk + d) := by
  refine ⟨i * part + blk, min (i * part + blk + part) (blk + d) - (i * part + blk), ?_, ?_⟩
  · unfold zeroes
    rw [part_val, seg_val] at *
    rw [num_val, blk_val, if_neg (by omega)]
    dsimp only
    rw [if_neg (by omega)]
  · intro x
    unfold ofPart
    rw [part_val, seg_val] at *
    rw [blk_val]
    omega

theorem start_part {fs i x : Nat} :
    (∃ r, startZeroes fs i = some r ∧ r.1 ≤ x ∧ x < r.1 + r.2) ↔ (ofPart i x ∧ x < fs) := by
  unfold startZeroes ofPart
  dsimp only
  rw [part_val, blk_val]
  constructor
  · rintro ⟨r, h1, h2, h3⟩
    split at h1
    · injection h1 with h1
      subst h1
      dsimp only at h2 h3
      omega
    · cases h1
  · rintro ⟨⟨h1, h2⟩, h3⟩
    rw [if_pos (by omega)]
    exact ⟨_, rfl, by dsimp only; omega, by dsimp only; omega⟩

end Verif.S3Parts.Io
