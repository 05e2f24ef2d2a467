import Verif.OBuffers.Spec

/-!
# Ranges and blocks, changes of the array of bytes
-/

namespace Verif.OBuffers

theorem blk_unique {n a b x y : Nat} (hx : x < n) (hy : y < n) (h : a * n + x = b * n + y) :
    a = b ∧ x = y := by
  have h1 : (a * n + x) / n = a := by
    rw [Nat.mul_comm, Nat.mul_add_div (by omega), Nat.div_eq_of_lt hx]; omega
  have h2 : (b * n + y) / n = b := by
    rw [Nat.mul_comm, Nat.mul_add_div (by omega), Nat.div_eq_of_lt hy]; omega
  have : a = b := by rw [← h1, ← h2, h]
  subst this
  exact ⟨rfl, by omega⟩

section
variable {c : Cfg} {o : Op}

theorem off_split : o.off = firstBlk c o * c.blk + o.off % c.blk := by
  unfold firstBlk; rw [Nat.mul_comm]; exact (Nat.div_add_mod _ _).symm

theorem end_split (hs : 0 < o.size) :
    o.off + o.size = lastBlk c o * c.blk + ((o.off + o.size - 1) % c.blk + 1) := by
  unfold lastBlk
  have := Nat.div_add_mod (o.off + o.size - 1) c.blk
  rw [Nat.mul_comm] at this
  omega

theorem first_le_last (hs : 0 < o.size) : firstBlk c o ≤ lastBlk c o :=
  Nat.div_le_div_right (by omega)

/-- Where a call is after the bytes of all blocks before `b`. -/
def At (c : Cfg) (o : Op) (b ptr : Nat) : Prop :=
  firstBlk c o ≤ b ∧ b ≤ lastBlk c o ∧ o.off + ptr = b * c.blk + copyOffset c o b

theorem at_start (hs : 0 < o.size) : At c o (firstBlk c o) 0 := by
  refine ⟨Nat.le_refl _, first_le_last hs, ?_⟩
  have := off_split (c := c) (o := o)
  unfold copyOffset
  split <;> simp <;> omega

theorem piece_fits (hs : 0 < o.size) {b ptr : Nat} (h : At c o b ptr) :
    copyOffset c o b + copySize c o b ≤ c.blk := by
  have h1 := off_split (c := c) (o := o)
  have h2 := end_split (c := c) hs
  have h3 := Nat.mod_lt o.off c.hb
  have h4 := Nat.mod_lt (o.off + o.size - 1) c.hb
  unfold copyOffset copySize
  split
  · next e => rw [e] at h1; omega
  · split
    · omega
    · split <;> omega

theorem piece_next (hs : 0 < o.size) {b ptr : Nat} (h : At c o b ptr) (hb : b < lastBlk c o) :
    At c o (b + 1) (ptr + copySize c o b) := by
  obtain ⟨h0, _, h1⟩ := h
  have h3 := Nat.mod_lt o.off c.hb
  refine ⟨by omega, by omega, ?_⟩
  have e : (b + 1) * c.blk = b * c.blk + c.blk := Nat.succ_mul _ _
  have hne : ¬ firstBlk c o = lastBlk c o := by omega
  have hne2 : ¬ b + 1 = firstBlk c o := by omega
  have hnl : ¬ b = lastBlk c o := by omega
  rw [e]
  unfold copyOffset at h1 ⊢
  unfold copySize
  simp only [if_neg hne, if_neg hne2, if_neg hnl] at h1 ⊢
  split at h1
  · next e => rw [if_pos e]; omega
  · next e => rw [if_neg e]; omega

theorem piece_last (hs : 0 < o.size) {b ptr : Nat} (h : At c o b ptr) (hb : ¬ b < lastBlk c o) :
    ptr + copySize c o b = o.size := by
  obtain ⟨h0, hle, h1⟩ := h
  have hb' : b = lastBlk c o := by omega
  subst hb'
  have h2 := end_split (c := c) hs
  have h4 := off_split (c := c) (o := o)
  unfold copyOffset at h1
  unfold copySize
  by_cases e : firstBlk c o = lastBlk c o
  · simp only [if_pos e] at h1 ⊢; rw [e] at h4; omega
  · have e' : ¬ lastBlk c o = firstBlk c o := fun h => e h.symm
    simp only [if_neg e, if_neg e', if_true] at h1 ⊢; omega

theorem piece_le (hs : 0 < o.size) {b ptr : Nat} (h : At c o b ptr) :
    ptr + copySize c o b ≤ o.size := by
  by_cases hb : b < lastBlk c o
  · obtain ⟨h0, _, h1⟩ := piece_next hs h hb
    have h2 := end_split (c := c) hs
    have h3 : (b + 1) * c.blk ≤ lastBlk c o * c.blk := Nat.mul_le_mul_right _ hb
    have h4 : b + 1 = lastBlk c o ∨ b + 1 < lastBlk c o := by omega
    rcases h4 with h4 | h4
    · have hne : ¬ firstBlk c o = lastBlk c o := by have := h.1; omega
      have hne2 : ¬ b + 1 = firstBlk c o := by have := h.1; omega
      have : copyOffset c o (b + 1) = 0 := by
        unfold copyOffset; rw [if_neg hne, if_neg hne2]
      omega
    · have hne : ¬ firstBlk c o = lastBlk c o := by have := h.1; omega
      have hne2 : ¬ b + 1 = firstBlk c o := by have := h.1; omega
      have : copyOffset c o (b + 1) = 0 := by
        unfold copyOffset; rw [if_neg hne, if_neg hne2]
      omega
  · exact Nat.le_of_eq (piece_last hs h hb)

end

/-- The bytes of a block now. -/
def mem (c : Cfg) (first : Nat → Nat → Nat) (tr : List Ev) (k : Key) (o : Nat) : Nat :=
  value first tr k.1 (k.2 * c.blk + o)

theorem slice_length {f : Nat → Nat} {o n : Nat} : (slice f o n).length = n := by simp [slice]

theorem slice_getD {f : Nat → Nat} {o n i : Nat} (h : i < n) : (slice f o n).getD i 0 = f (o + i) := by
  simp [slice, h]

theorem mem_wr_same {c : Cfg} {first : Nat → Nat → Nat} {tr : List Ev} {k : Key} {co n ptr : Nat}
    {buf : Nat → Nat} {o : Nat} :
    mem c first (.wr k.1 (k.2 * c.blk + co) (slice buf ptr n) :: tr) k o =
      cpy (mem c first tr k) co buf ptr n o := by
  unfold mem cpy
  rw [value, slice_length]
  by_cases h : co ≤ o ∧ o < co + n
  · rw [if_pos h, if_pos ⟨rfl, by omega, by omega⟩, slice_getD (by omega)]
    congr 1; omega
  · rw [if_neg h, if_neg (by rintro ⟨-, h1, h2⟩; exact h ⟨by omega, by omega⟩)]

theorem mem_wr_other {c : Cfg} {first : Nat → Nat → Nat} {tr : List Ev} {k k' : Key} {co n ptr : Nat}
    {buf : Nat → Nat} {o : Nat} (hk : k' ≠ k) (ho : o < c.blk) (hn : co + n ≤ c.blk) :
    mem c first (.wr k.1 (k.2 * c.blk + co) (slice buf ptr n) :: tr) k' o = mem c first tr k' o := by
  unfold mem
  rw [value, slice_length]
  rw [if_neg]
  rintro ⟨h1, h2, h3⟩
  obtain ⟨t, b⟩ := k
  obtain ⟨t', b'⟩ := k'
  simp only at h1 h2 h3
  apply hk
  have : b' * c.blk + o = b * c.blk + (b' * c.blk + o - b * c.blk) := by omega
  have := (blk_unique ho (by omega) this).1
  rw [h1, this]

theorem mem_call {c : Cfg} {first : Nat → Nat → Nat} {tr : List Ev} {p : Nat} {op : Op} :
    mem c first (.call p op :: tr) = mem c first tr := rfl

theorem mem_ret {c : Cfg} {first : Nat → Nat → Nat} {tr : List Ev} {p : Nat} {op : Op} {ok : Bool}
    {acc : Nat → Nat} : mem c first (.ret p op ok acc :: tr) = mem c first tr := rfl

theorem mem_rd {c : Cfg} {first : Nat → Nat → Nat} {tr : List Ev} {t a : Nat} {bs : List Nat} :
    mem c first (.rd t a bs :: tr) = mem c first tr := rfl

end Verif.OBuffers
