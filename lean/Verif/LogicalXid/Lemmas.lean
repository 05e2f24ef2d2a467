import Verif.LogicalXid.Model

/-!
# Bits of the logical id map and the arithmetic of ids
-/

namespace Verif.LogicalXid

/-! ## The lowest clear bit of a word -/

theorem low_aux : ∀ (n v : Nat), v < 2 ^ n →
    (v = 2 ^ n - 1 ∧ (2 ^ n - 1 - v) &&& ((v + 1) % 2 ^ n) = 0) ∨
    ∃ k, k < n ∧ v.testBit k = false ∧ (2 ^ n - 1 - v) &&& ((v + 1) % 2 ^ n) = 2 ^ k := by
  intro n
  induction n with
  | zero =>
    intro v hv
    have : v = 0 := by simp at hv; omega
    subst this; left; simp
  | succ n ih =>
    intro v hv
    have h2 : 2 ^ (n + 1) = 2 * 2 ^ n := by rw [Nat.pow_succ]; omega
    have hp : 0 < 2 ^ n := Nat.two_pow_pos n
    rw [h2] at hv ⊢
    by_cases hodd : v % 2 = 0
    · right
      have hlt : v + 1 < 2 * 2 ^ n := by omega
      refine ⟨0, by omega, by rw [Nat.testBit_zero]; simp [hodd], ?_⟩
      apply Nat.eq_of_testBit_eq
      intro i
      cases i with
      | zero =>
        rw [Nat.testBit_and, Nat.testBit_zero, Nat.testBit_zero]
        have e1 : (2 * 2 ^ n - 1 - v) % 2 = 1 := by omega
        have e2 : (v + 1) % (2 * 2 ^ n) % 2 = 1 := by
          rw [Nat.mod_eq_of_lt hlt]; omega
        simp [e1, e2]
      | succ i =>
        rw [Nat.testBit_and, Nat.testBit_succ, Nat.testBit_succ]
        have e1 : (2 * 2 ^ n - 1 - v) / 2 = 2 ^ n - (v / 2 + 1) := by omega
        have e2 : (v + 1) % (2 * 2 ^ n) / 2 = v / 2 := by
          rw [Nat.mod_eq_of_lt hlt]; omega
        rw [e1, e2, Nat.testBit_two_pow_sub_succ (by omega)]
        simp only [Nat.pow_zero, Nat.testBit_succ]
        have : (1 : Nat) / 2 = 0 := rfl
        rw [this, Nat.zero_testBit]
        cases h : (v / 2).testBit i <;> simp
    · have hv2 : v / 2 < 2 ^ n := by omega
      have e1 : (2 * 2 ^ n - 1 - v) = 2 * (2 ^ n - 1 - v / 2) := by omega
      have e2 : (v + 1) % (2 * 2 ^ n) = 2 * ((v / 2 + 1) % 2 ^ n) := by
        rw [← Nat.mul_mod_mul_left]; congr 1; omega
      have key : (2 * 2 ^ n - 1 - v) &&& ((v + 1) % (2 * 2 ^ n)) =
          2 * ((2 ^ n - 1 - v / 2) &&& ((v / 2 + 1) % 2 ^ n)) := by
        rw [e1, e2]
        apply Nat.eq_of_testBit_eq
        intro i
        cases i with
        | zero => simp [Nat.testBit_zero]
        | succ i =>
          rw [Nat.testBit_and, Nat.testBit_succ, Nat.testBit_succ, Nat.testBit_succ,
            Nat.mul_div_cancel_left _ (by omega), Nat.mul_div_cancel_left _ (by omega),
            Nat.mul_div_cancel_left _ (by omega), Nat.testBit_and]
      rcases ih (v / 2) hv2 with ⟨ha, hb⟩ | ⟨k, hk, ht, hb⟩
      · left
        refine ⟨by omega, ?_⟩
        rw [key, hb]
      · right
        refine ⟨k + 1, by omega, by rw [Nat.testBit_succ]; exact ht, ?_⟩
        rw [key, hb, Nat.pow_succ]; omega

/-- The lowest clear bit of a word, if any. -/
theorem lowZero_spec (v : Nat) (hv : v < 4294967296) :
    (v = ones ∧ lowZero v = 0) ∨
    ∃ k, k < 32 ∧ v.testBit k = false ∧ lowZero v = 2 ^ k := by
  have h := low_aux 32 v (by simpa using hv)
  simpa [lowZero, ones] using h

/-! ## Ids -/

theorem retreat_range {x : Nat} (h : x < 4294967296) : 3 ≤ retreat x ∧ retreat x < 4294967296 := by
  unfold retreat ones; split <;> omega

/-- The id of a position determines the position, and is a normal transaction id. -/
theorem logicalId_spec {d xmin num : Nat} (hd : 0 < d) (hd2 : d ≤ 67108864)
    (hx : xmin < 4294967296) (hn : num < d) :
    logicalId d xmin num % d = num ∧ 3 ≤ logicalId d xmin num ∧
    logicalId d xmin num < 4294967296 := by
  have hr := retreat_range hx
  unfold logicalId
  generalize retreat xmin = r at hr
  have hrd : r % d < d := Nat.mod_lt _ hd
  have hdm := Nat.div_add_mod r d
  have hq : ones % d < d := Nat.mod_lt _ hd
  have hqm := Nat.div_add_mod ones d
  have h64 : 63 ≤ ones / d := by
    rw [Nat.le_div_iff_mul_le hd]; unfold ones; omega
  have h64d : 63 * d ≤ d * (ones / d) := by
    rw [Nat.mul_comm 63 d]; exact Nat.mul_le_mul_left d h64
  have e3 : (ones - ones % d) = d * (ones / d) := by omega
  dsimp only
  by_cases hc : r % d > num
  · rw [if_pos hc]
    by_cases hg : r ≥ 3 + (r % d - num)
    · rw [if_pos hg]
      have e : r - (r % d - num) = num + d * (r / d) := by omega
      refine ⟨?_, by omega, by omega⟩
      rw [e, Nat.add_mul_mod_self_left, Nat.mod_eq_of_lt hn]
    · rw [if_neg hg, e3]
      have e : d * (ones / d) - (d - num) = num + d * (ones / d - 1) := by
        rw [Nat.mul_sub, Nat.mul_one]; omega
      refine ⟨?_, by omega, ?_⟩
      · rw [e, Nat.add_mul_mod_self_left, Nat.mod_eq_of_lt hn]
      · have : d * (ones / d) ≤ ones := Nat.mul_div_le _ _
        unfold ones at *; omega
  · rw [if_neg hc]
    by_cases hg : r ≥ 3 + (r % d + (d - num))
    · rw [if_pos hg]
      have h1 : d ≤ d * (r / d) := by
        have h0 : 0 < r / d := by
          rcases Nat.eq_zero_or_pos (r / d) with h | h
          · rw [h, Nat.mul_zero] at hdm; omega
          · exact h
        calc d = d * 1 := (Nat.mul_one d).symm
          _ ≤ d * (r / d) := Nat.mul_le_mul_left d h0
      have e : r - (r % d + (d - num)) = num + d * (r / d - 1) := by
        rw [Nat.mul_sub, Nat.mul_one]; omega
      refine ⟨?_, by omega, by omega⟩
      rw [e, Nat.add_mul_mod_self_left, Nat.mod_eq_of_lt hn]
    · rw [if_neg hg, e3]
      have e : d * (ones / d) - (d - num) = num + d * (ones / d - 1) := by
        rw [Nat.mul_sub, Nat.mul_one]; omega
      refine ⟨?_, by omega, ?_⟩
      · rw [e, Nat.add_mul_mod_self_left, Nat.mod_eq_of_lt hn]
      · have : d * (ones / d) ≤ ones := Nat.mul_div_le _ _
        unfold ones at *; omega

/-! ## The map -/

/-- Bit `m` of the map. -/
def bitOf (map : List Nat) (m : Nat) : Bool := (map[m / 32]?.getD 0).testBit (m % 32)

theorem bitOf_set {map : List Nat} {i w : Nat} (hi : i < map.length) (m : Nat) :
    bitOf (map.set i w) m = if m / 32 = i then w.testBit (m % 32) else bitOf map m := by
  unfold bitOf
  by_cases h : m / 32 = i
  · rw [if_pos h, h, List.getElem?_set_self hi]; rfl
  · rw [if_neg h, List.getElem?_set_ne (Ne.symm h)]

theorem bitOf_take {map : List Nat} {i k : Nat} (hi : i < map.length) (hk : k < 32) (m : Nat) :
    bitOf (map.set i ((map[i]?.getD 0) ||| 2 ^ k)) m =
      if m = i * 32 + k then true else bitOf map m := by
  rw [bitOf_set hi]
  by_cases h : m / 32 = i
  · rw [if_pos h, Nat.testBit_or, Nat.testBit_two_pow]
    by_cases h2 : m = i * 32 + k
    · rw [if_pos h2]
      have : k = m % 32 := by omega
      simp [this]
    · rw [if_neg h2]
      have : ¬ k = m % 32 := by omega
      simp only [this, decide_false, Bool.or_false]
      unfold bitOf; rw [h]
  · rw [if_neg h, if_neg (by omega)]

theorem bitOf_clear {map : List Nat} {x : Nat} (hm : 0 < map.length) (m : Nat)
    (hlt : m < map.length * 32) :
    bitOf (map.set (x % (map.length * 32) / 32)
      ((map[x % (map.length * 32) / 32]?.getD 0) &&&
        (ones ^^^ 2 ^ (x % (map.length * 32) % 32)))) m =
      if m = x % (map.length * 32) then false else bitOf map m := by
  have hx : x % (map.length * 32) < map.length * 32 := Nat.mod_lt _ (by omega)
  generalize x % (map.length * 32) = num at hx
  rw [bitOf_set (by omega)]
  have h1 : ∀ j, j < 32 → ones.testBit j = true := by
    intro j hj
    have : ones = 2 ^ 32 - 1 := rfl
    rw [this, Nat.testBit_two_pow_sub_one]; simpa using hj
  by_cases h : m / 32 = num / 32
  · rw [if_pos h, Nat.testBit_and, Nat.testBit_xor, h1 _ (by omega), Nat.testBit_two_pow]
    by_cases h2 : m = num
    · subst h2; simp
    · rw [if_neg h2]
      have : ¬ num % 32 = m % 32 := by omega
      simp only [this, decide_false, Bool.xor_false, Bool.and_true]
      unfold bitOf; rw [h]
  · rw [if_neg h, if_neg (by intro e; exact h (by rw [e]))]

theorem word_and_two_pow {v k : Nat} : v &&& 2 ^ k = 0 ↔ v.testBit k = false := by
  constructor
  · intro h
    have := congrArg (fun x => x.testBit k) h
    simpa [Nat.testBit_and, Nat.testBit_two_pow] using this
  · intro h
    apply Nat.eq_of_testBit_eq
    intro i
    rw [Nat.testBit_and, Nat.testBit_two_pow, Nat.zero_testBit]
    by_cases e : k = i
    · subst e; simp [h]
    · simp [e]

theorem word_or_lt {v k : Nat} (hv : v < 4294967296) (hk : k < 32) : v ||| 2 ^ k < 4294967296 := by
  have : (2 : Nat) ^ 32 = 4294967296 := rfl
  rw [← this] at *
  exact Nat.or_lt_two_pow hv (Nat.pow_lt_pow_right (by omega) hk)

theorem word_and_lt {v w : Nat} (hv : v < 4294967296) : v &&& w < 4294967296 :=
  Nat.lt_of_le_of_lt Nat.and_le_left hv

theorem sum_set' {α : Type} (f : α → Nat) (y : α) :
    ∀ (l : List α) (i : Nat) (x : α), l[i]? = some x →
      ((l.set i y).map f).sum + f x = (l.map f).sum + f y := by
  intro l
  induction l with
  | nil => intro i x h; simp at h
  | cons a l ih =>
    intro i x h
    cases i with
    | zero =>
      simp at h; subst h
      simp only [List.set_cons_zero, List.map_cons, List.sum_cons]; omega
    | succ i =>
      simp at h
      have := ih i x h
      simp only [List.set_cons_succ, List.map_cons, List.sum_cons]; omega

end Verif.LogicalXid
