import Verif.KeyBitmap.PkModel
import Verif.KeyBitmap.PkSpec
import Verif.KeyBitmap.Fixed

/-!
# One column: the encoding preserves the order and can be undone
-/

namespace Verif.KeyBitmap

/-! ## Bits -/

theorem xor_sign (n u : Nat) (h : u < 2 ^ (n + 1)) : u ^^^ 2 ^ n = (u + 2 ^ n) % 2 ^ (n + 1) := by
  apply Nat.eq_of_testBit_eq
  intro i
  rw [Nat.testBit_xor, Nat.testBit_two_pow, Nat.testBit_mod_two_pow, Nat.add_comm u]
  rcases Nat.lt_trichotomy i n with hi | hi | hi
  · rw [Nat.testBit_two_pow_add_gt hi]
    have h1 : ¬ n = i := by omega
    have h2 : i < n + 1 := by omega
    simp [h1, h2]
  · subst hi
    rw [Nat.testBit_two_pow_add_eq]
    simp
  · have h1 : ¬ n = i := by omega
    have h2 : ¬ i < n + 1 := by omega
    rw [Nat.testBit_lt_two_pow (Nat.lt_of_lt_of_le h (Nat.pow_le_pow_right (by omega) (by omega)))]
    simp [h1, h2]

theorem xor_ones (n u : Nat) (h : u < 2 ^ n) : u ^^^ (2 ^ n - 1) = 2 ^ n - 1 - u := by
  apply Nat.eq_of_testBit_eq
  intro i
  rw [show 2 ^ n - 1 - u = 2 ^ n - (u + 1) by omega, Nat.testBit_two_pow_sub_succ h,
    Nat.testBit_xor, Nat.testBit_two_pow_sub_one]
  by_cases hi : i < n
  · simp [hi]
  · rw [Nat.testBit_lt_two_pow (Nat.lt_of_lt_of_le h (Nat.pow_le_pow_right (by omega) (by omega)))]
    simp [hi]

theorem and_sign (n u : Nat) (h : u < 2 ^ (n + 1)) : u &&& 2 ^ n ≠ 0 ↔ 2 ^ n ≤ u := by
  have h1 := and_bit u n
  rw [Nat.one_shiftLeft] at h1
  have h2 : (u &&& 2 ^ n ≠ 0) ↔ ((u &&& 2 ^ n) != 0) = true := by simp
  rw [h2, h1]
  rw [Nat.testBit_eq_decide_div_mod_eq, decide_eq_true_eq]
  rw [Nat.pow_succ] at h
  constructor
  · intro h3
    apply Decidable.byContradiction
    intro h4
    rw [Nat.div_eq_of_lt (by omega)] at h3
    cases h3
  · intro h3
    have : u / 2 ^ n = 1 := by
      apply Nat.div_eq_of_lt_le <;> omega
    rw [this]

theorem signBit_2 : signBit 2 = 2 ^ 15 := rfl
theorem signBit_4 : signBit 4 = 2 ^ 31 := rfl
theorem signBit_8 : signBit 8 = 2 ^ 63 := rfl
theorem allOnes_4 : allOnes 4 = 2 ^ 32 - 1 := rfl
theorem allOnes_8 : allOnes 8 = 2 ^ 64 - 1 := rfl

/-! ## Bytes -/

theorem be_length (w u : Nat) : (be w u).length = w := by
  induction w generalizing u with
  | zero => rfl
  | succ w ih => simp [be, ih]

theorem be_byte (w u : Nat) : ∀ b ∈ be w u, b < 256 := by
  induction w generalizing u with
  | zero => intro b hb; cases hb
  | succ w ih =>
    intro b hb
    unfold be at hb
    rcases List.mem_append.1 hb with hb | hb
    · exact ih _ b hb
    · simp at hb; omega

theorem value_append (a b : List Nat) : value (a ++ b) = 256 ^ b.length * value a + value b := by
  show List.foldl _ _ (a ++ b) = _
  rw [List.foldl_append, foldl_value]
  rfl

theorem be_value (w u : Nat) : value (be w u) = u % 256 ^ w := by
  induction w generalizing u with
  | zero => simp [be, value]; omega
  | succ w ih =>
    unfold be
    rw [value_append, ih, Nat.shiftRight_eq_div_pow, Nat.pow_succ 256 w]
    have h1 : value [u % 256] = u % 256 := by simp [value]
    have h2 : [u % 256].length = 1 := rfl
    rw [h1, h2, Nat.mul_comm (256 ^ w) 256, Nat.mod_mul]
    show 256 * (u / 256 % 256 ^ w) + u % 256 = _
    omega

/-- The loop of the decoder. -/
theorem decode_value (l : List Nat) (hl : ∀ b ∈ l, b < 256) (hn : l.length ≤ 8) :
    l.foldl (fun u b => (u <<< 8) % 18446744073709551616 ||| b) 0 = value l := by
  have : ∀ (l : List Nat) (u k : Nat), (∀ b ∈ l, b < 256) → l.length + k ≤ 8 → u < 256 ^ k →
      l.foldl (fun u b => (u <<< 8) % 18446744073709551616 ||| b) u =
        l.foldl (fun n b => 256 * n + b) u := by
    intro l
    induction l with
    | nil => intros; rfl
    | cons b l ih =>
      intro u k hb hk hu
      rw [List.foldl_cons, List.foldl_cons]
      have hb1 := hb b (List.mem_cons_self ..)
      rw [List.length_cons] at hk
      have hstep : (u <<< 8) % 18446744073709551616 ||| b = 256 * u + b := by
        rw [Nat.shiftLeft_eq]
        have h1 : u * 2 ^ 8 < 18446744073709551616 := by
          have : 256 ^ k ≤ 256 ^ 7 := Nat.pow_le_pow_right (by omega) (by omega)
          omega
        rw [Nat.mod_eq_of_lt h1, Nat.mul_comm]
        exact (Nat.two_pow_add_eq_or_of_lt (i := 8) hb1 u).symm
      rw [hstep]
      refine ih _ (k + 1) (fun x hx => hb x (List.mem_cons_of_mem _ hx)) (by omega) ?_
      rw [Nat.pow_succ]
      have : 256 ^ k = (256 ^ k - 1) + 1 := by have := Nat.pow_pos (n := k) (show 0 < 256 by omega); omega
      omega
  exact this l 0 0 hl (by omega) (by simp)

/-! ## Floating point numbers -/

theorem mag_step (m e x : Nat) (h : x + 1 < 2 ^ (m + e)) :
    magnitude m e x < magnitude m e (x + 1) := by
  unfold magnitude
  rw [Nat.mod_eq_of_lt h, Nat.mod_eq_of_lt (by omega : x < 2 ^ (m + e))]
  have hp : 0 < 2 ^ m := Nat.two_pow_pos m
  generalize 2 ^ m = p at hp
  have hx : x = p * (x / p) + x % p := (Nat.div_add_mod x p).symm
  have hr : x % p < p := Nat.mod_lt _ hp
  generalize x / p = q at hx
  generalize x % p = r at hx hr
  subst hx
  by_cases hc : r + 1 < p
  · have e1 : (p * q + r + 1) / p = q := by
      rw [Nat.add_assoc, Nat.mul_add_div hp, Nat.div_eq_of_lt hc]; rfl
    have e2 : (p * q + r + 1) % p = r + 1 := by
      rw [Nat.add_assoc, Nat.mul_add_mod, Nat.mod_eq_of_lt hc]
    rw [e1, e2]
    dsimp only
    split
    · omega
    · exact Nat.mul_lt_mul_of_pos_right (by omega) (Nat.two_pow_pos _)
  · have e0 : p * q + r + 1 = p * (q + 1) := by rw [Nat.mul_add]; omega
    rw [e0, Nat.mul_div_cancel_left _ hp, Nat.mul_mod_right]
    dsimp only
    rw [if_neg (by omega : ¬ q + 1 = 0)]
    split
    · rename_i hq; rw [hq]; simp; omega
    · rename_i hq
      have e1 : q + 1 - 1 = (q - 1) + 1 := by omega
      rw [e1, Nat.pow_succ]
      have : (p + r) * 2 ^ (q - 1) < (p * 2) * 2 ^ (q - 1) :=
        Nat.mul_lt_mul_of_pos_right (by omega) (Nat.two_pow_pos _)
      generalize 2 ^ (q - 1) = z at this
      grind

theorem mag_mono (m e : Nat) : ∀ d x, x + d + 1 < 2 ^ (m + e) →
    magnitude m e x < magnitude m e (x + d + 1) := by
  intro d
  induction d with
  | zero => intro x h; exact mag_step m e x h
  | succ d ih =>
    intro x h
    have h1 := ih x (by omega)
    have h2 := mag_step m e (x + d + 1) (by omega)
    exact Nat.lt_trans h1 h2

theorem mag_lt (m e x y : Nat) (hy : y < 2 ^ (m + e)) (hx : x < 2 ^ (m + e)) :
    magnitude m e x < magnitude m e y ↔ x < y := by
  have h : ∀ a b, a < b → b < 2 ^ (m + e) → magnitude m e a < magnitude m e b := by
    intro a b h1 h2
    have := mag_mono m e (b - a - 1) a (by omega)
    rwa [show a + (b - a - 1) + 1 = b by omega] at this
  constructor
  · intro h1
    rcases Nat.lt_trichotomy x y with c | c | c
    · exact c
    · rw [c] at h1; omega
    · have := h y x c hx; omega
  · intro h1; exact h x y h1 hy

theorem magnitude_mod (m e x : Nat) : magnitude m e (x % 2 ^ (m + e)) = magnitude m e x := by
  unfold magnitude
  rw [Nat.mod_mod, Nat.pow_add, Nat.mod_mul_right_mod]

theorem magnitude_zero (m e : Nat) : magnitude m e 0 = 0 := by
  simp [magnitude]

/-- Signed bits: order of the numbers. -/
def smag (h bits : Nat) : Int := if h ≤ bits then -((bits % h : Nat) : Int) else (bits % h : Nat)

theorem div_two_eq {h x : Nat} (hp : 0 < h) (hx : x < h * 2) : (x / h % 2 = 1) ↔ h ≤ x := by
  have hq : x / h < 2 := by
    rw [Nat.div_lt_iff_lt_mul hp, Nat.mul_comm]; exact hx
  constructor
  · intro h1
    apply Decidable.byContradiction
    intro h2
    rw [Nat.div_eq_of_lt (by omega)] at h1
    simp at h1
  · intro h1
    have := Nat.div_pos h1 hp
    omega

theorem real_lt (m e x y : Nat) (hx : x < 2 ^ (m + e + 1)) (hy : y < 2 ^ (m + e + 1)) :
    real m e x < real m e y ↔ smag (2 ^ (m + e)) x < smag (2 ^ (m + e)) y := by
  have hp : 0 < 2 ^ (m + e) := Nat.two_pow_pos _
  rw [Nat.pow_succ] at hx hy
  unfold real smag
  simp only [div_two_eq hp hx, div_two_eq hp hy]
  rw [← magnitude_mod m e x, ← magnitude_mod m e y]
  have hxm := Nat.mod_lt x hp
  have hym := Nat.mod_lt y hp
  have h1 := mag_lt m e _ _ hym hxm
  have h2 := mag_lt m e _ _ hxm hym
  have h3 := mag_lt m e _ _ hxm hp
  have h4 := mag_lt m e _ _ hym hp
  have h5 := mag_lt m e _ _ hp hxm
  have h6 := mag_lt m e _ _ hp hym
  rw [magnitude_zero] at h3 h4 h5 h6
  generalize x % 2 ^ (m + e) = a at *
  generalize y % 2 ^ (m + e) = b at *
  split <;> split <;> omega

/-- The code of a float with exponent-and-mantissa range `h` and infinity `inf`. -/
def fcode (h inf nanp bits : Nat) : Nat :=
  let c := if bits % h > inf then nanp else if bits % h = 0 then 0 else bits
  if h ≤ c then 2 * h - 1 - c else c + h

theorem fcode_lt (h inf nanp x y : Nat) (hx : x < 2 * h) (hy : y < 2 * h) (hi : inf < nanp)
    (hn : nanp < h) :
    fcode h inf nanp x < fcode h inf nanp y ↔
      (if x % h > inf then False else if y % h > inf then True else smag h x < smag h y) := by
  have hxm : (h ≤ x ∧ x = x % h + h) ∨ (¬ h ≤ x ∧ x = x % h) := by
    by_cases c : h ≤ x
    · left; refine ⟨c, ?_⟩
      rw [Nat.mod_eq_sub_mod c, Nat.mod_eq_of_lt (by omega)]; omega
    · right; exact ⟨c, (Nat.mod_eq_of_lt (by omega)).symm⟩
  have hym : (h ≤ y ∧ y = y % h + h) ∨ (¬ h ≤ y ∧ y = y % h) := by
    by_cases c : h ≤ y
    · left; refine ⟨c, ?_⟩
      rw [Nat.mod_eq_sub_mod c, Nat.mod_eq_of_lt (by omega)]; omega
    · right; exact ⟨c, (Nat.mod_eq_of_lt (by omega)).symm⟩
  unfold fcode smag
  dsimp only
  generalize x % h = a at *
  generalize y % h = b at *
  by_cases c1 : a > inf
  · simp only [c1, if_true]
    by_cases c2 : b > inf
    · simp only [c2, if_true]; simp
    · simp only [c2, if_false]
      rw [if_neg (by omega : ¬ h ≤ nanp)]
      split <;> split <;> (try omega)
      all_goals simp only [iff_false]; omega
  · simp only [c1, if_false]
    by_cases c2 : b > inf
    · simp only [c2, if_true, iff_true]
      rw [if_neg (by omega : ¬ h ≤ nanp)]
      split <;> split <;> omega
    · simp only [c2, if_false]
      rcases hxm with ⟨p1, p2⟩ | ⟨p1, p2⟩ <;> rcases hym with ⟨q1, q2⟩ | ⟨q1, q2⟩ <;>
        by_cases z1 : a = 0 <;> by_cases z2 : b = 0 <;>
        simp only [p1, q1, z1, z2, if_true, if_false] <;>
        (repeat' split) <;> omega

/-! ## One column -/

/-- A `Datum` stands for a value of a type; only as many bits count as the type has. -/
def Stored (t : PgType) : Datum → V → Prop
  | .num n, .int v => (n : Int) % 2 ^ (8 * t.size) = v % 2 ^ (8 * t.size)
  | .num n, .nat m => n % 2 ^ (8 * t.size) = m
  | .num n, .float b => n % 2 ^ (8 * t.size) = b
  | .ptr p, .bytes b => p = b
  | _, _ => False

/-- The `Datum` PostgreSQL makes of a value: signed numbers are extended to 64 bits. -/
def Exact (t : PgType) (d : Datum) (x : V) : Prop :=
  Stored t d x ∧ ∀ v, x = .int v → d = .num (v % 18446744073709551616).toNat

/-- The number that stands for a value in the key. -/
def code (t : PgType) : V → Nat
  | .int v => (v + 2 ^ (8 * t.size - 1)).toNat
  | .nat n => n
  | .float b =>
    if t = .float4 then fcode 2147483648 0x7f800000 0x7fc00000 b
    else fcode 9223372036854775808 0x7ff0000000000000 0x7ff8000000000000 b
  | .bytes b => value b

def kindOf : Shape → Kind
  | .signed => .sint
  | .unsigned => .uint
  | .real => .float
  | .string => .raw

theorem lookup_eq (t : PgType) : fixedLookup t.number = some (t.size, kindOf t.shape) := by
  cases t <;> decide

theorem floatBits_4 (b : Nat) (hb : b < 4294967296) :
    floatBits 4 b = fcode 2147483648 0x7f800000 0x7fc00000 b := by
  unfold floatBits fcode isNan isZero nanBits
  rw [signBit_4, allOnes_4]
  simp only [if_true, decide_eq_true_eq, beq_iff_eq]
  have hc : (if b % 2147483648 > 0x7f800000 then 0x7fc00000 else
    if b % 2147483648 = 0 then 0 else b) < 2 ^ (31 + 1) := by
    split
    · omega
    · split <;> omega
  generalize (if b % 2147483648 > 0x7f800000 then 0x7fc00000 else
    if b % 2147483648 = 0 then 0 else b) = c at hc
  simp only [and_sign 31 c hc]
  by_cases h : 2 ^ 31 ≤ c
  · rw [if_pos h, if_pos (by omega), xor_ones 32 c hc]
  · rw [if_neg h, if_neg (by omega), xor_sign 31 c hc]; omega

theorem floatBits_8 (b : Nat) (hb : b < 18446744073709551616) :
    floatBits 8 b = fcode 9223372036854775808 0x7ff0000000000000 0x7ff8000000000000 b := by
  unfold floatBits fcode isNan isZero nanBits
  rw [signBit_8, allOnes_8]
  simp only [show ¬ (8 : Nat) = 4 by omega, if_false, decide_eq_true_eq, beq_iff_eq]
  have hc : (if b % 9223372036854775808 > 0x7ff0000000000000 then 0x7ff8000000000000 else
    if b % 9223372036854775808 = 0 then 0 else b) < 2 ^ (63 + 1) := by
    split
    · omega
    · split <;> omega
  generalize (if b % 9223372036854775808 > 0x7ff0000000000000 then 0x7ff8000000000000 else
    if b % 9223372036854775808 = 0 then 0 else b) = c at hc
  simp only [and_sign 63 c hc]
  by_cases h : 2 ^ 63 ≤ c
  · rw [if_pos h, if_pos (by omega), xor_ones 64 c hc]
  · rw [if_neg h, if_neg (by omega), xor_sign 63 c hc]; omega

theorem fcode_bound (h inf nanp x : Nat) (hx : x < 2 * h) (hn : nanp < h) :
    fcode h inf nanp x < 2 * h := by
  unfold fcode
  dsimp only
  repeat' split
  all_goals omega

theorem encodeOne_num {t : PgType} (hs : t.shape ≠ .string) (n : Nat) :
    encodeOne (.num n) t.number = .ok (be t.size (encodeNum t.size (kindOf t.shape) n)) := by
  unfold encodeOne
  rw [lookup_eq]
  cases hsh : t.shape <;> first | rfl | exact absurd hsh hs

theorem sint_2 (n : Nat) (v : Int) (h : (n : Int) % 65536 = v % 65536) (h1 : -32768 ≤ v)
    (h2 : v < 32768) : n % 65536 ^^^ signBit 2 = (v + 32768).toNat := by
  rw [signBit_2, xor_sign 15 _ (by omega)]; omega

theorem sint_4 (n : Nat) (v : Int) (h : (n : Int) % 4294967296 = v % 4294967296)
    (h1 : -2147483648 ≤ v) (h2 : v < 2147483648) :
    n % 4294967296 ^^^ signBit 4 = (v + 2147483648).toNat := by
  rw [signBit_4, xor_sign 31 _ (by omega)]; omega

theorem sint_8 (n : Nat) (v : Int) (h : (n : Int) % 18446744073709551616 = v % 18446744073709551616)
    (h1 : -9223372036854775808 ≤ v) (h2 : v < 9223372036854775808) :
    n % 18446744073709551616 ^^^ signBit 8 = (v + 9223372036854775808).toNat := by
  rw [signBit_8, xor_sign 63 _ (by omega)]; omega

theorem code_num {t : PgType} {n : Nat} {x : V} (hd : Stored t (.num n) x)
    (hx : HasType t x) : encodeNum t.size (kindOf t.shape) n = code t x ∧ code t x < 256 ^ t.size := by
  cases x with
  | int v =>
    obtain ⟨h1, h2, h3⟩ := hx
    cases t <;> cases h1 <;>
      simp (config := { decide := true }) only [Stored, PgType.size, PgType.shape, kindOf,
        encodeNum, code, Nat.reduceMul, Nat.reduceSub, Nat.reducePow, Int.reducePow, if_true,
        if_false, Int.reduceNeg] at *
    all_goals first
      | exact ⟨sint_2 n v hd h2 h3, by omega⟩
      | exact ⟨sint_4 n v hd h2 h3, by omega⟩
      | exact ⟨sint_8 n v hd h2 h3, by omega⟩
  | nat m =>
    obtain ⟨h1, h2⟩ := hx
    cases t <;> cases h1 <;>
      simp (config := { decide := true }) only [Stored, PgType.size, PgType.shape, kindOf,
        encodeNum, code, Nat.reduceMul, Nat.reduceSub, Nat.reducePow, if_true,
        if_false] at * <;> exact ⟨hd, h2⟩
  | float b =>
    obtain ⟨h1, h2⟩ := hx
    cases t <;> cases h1 <;>
      simp (config := { decide := true }) only [Stored, PgType.size, PgType.shape, kindOf,
        encodeNum, code, Nat.reduceMul, Nat.reduceSub, Nat.reducePow, if_true,
        if_false] at *
    · rw [hd]; exact ⟨floatBits_4 b h2, fcode_bound _ _ _ _ (by omega) (by omega)⟩
    · rw [hd]; exact ⟨floatBits_8 b h2, fcode_bound _ _ _ _ (by omega) (by omega)⟩
  | bytes b => cases hd

theorem shape_of_num {t : PgType} {n : Nat} {x : V} (hd : Stored t (.num n) x) (hx : HasType t x) :
    t.shape ≠ .string := by
  cases x with
  | int v => rw [hx.1]; intro h; cases h
  | nat v => rw [hx.1]; intro h; cases h
  | float v => rw [hx.1]; intro h; cases h
  | bytes b => cases hd

theorem size_pos (t : PgType) : 0 < t.size := by cases t <;> decide

/-- Encoding one column: as many bytes as the type has, standing for the code. -/
theorem encodeOne_spec {t : PgType} {d : Datum} {x : V} (hd : Stored t d x) (hx : HasType t x) :
    ∃ bytes, encodeOne d t.number = .ok bytes ∧ bytes.length = t.size ∧ (∀ b ∈ bytes, b < 256) ∧
      value bytes = code t x := by
  cases d with
  | num n =>
    have h := code_num hd hx
    refine ⟨_, encodeOne_num (shape_of_num hd hx) n, be_length _ _, be_byte _ _, ?_⟩
    rw [be_value, h.1, Nat.mod_eq_of_lt h.2]
  | ptr p =>
    cases x with
    | bytes b =>
      have hd : p = b := hd
      subst hd
      obtain ⟨h1, h2, h3⟩ := hx
      refine ⟨p, ?_, h2, h3, rfl⟩
      unfold encodeOne
      rw [lookup_eq, h1]
      simp [kindOf, ← h2]
    | int v => cases hd
    | nat v => cases hd
    | float v => cases hd

theorem bytesLt_iff (a b : List Nat) (hl : a.length = b.length) (ha : ∀ x ∈ a, x < 256)
    (hb : ∀ x ∈ b, x < 256) : bytesLt a b ↔ value a < value b := by
  rw [← memLt_iff a b hl ha hb]
  induction a generalizing b with
  | nil => simp [bytesLt, memLt]
  | cons x a ih =>
    cases b with
    | nil => simp [bytesLt, memLt]
    | cons y b =>
      have := ih b (by simpa using hl) (fun z hz => ha z (List.mem_cons_of_mem _ hz))
        (fun z hz => hb z (List.mem_cons_of_mem _ hz))
      unfold bytesLt memLt
      rw [this]
      by_cases c1 : x < y
      · simp [c1]
      · by_cases c2 : y < x
        · simp [c1, c2]; omega
        · have : x = y := by omega
          simp [this]

theorem nan_4 (b : Nat) : nan 23 8 b ↔ b % 2147483648 > 0x7f800000 := by
  unfold nan
  simp only [Nat.reduceAdd, Nat.reducePow, Nat.reduceSub]
  omega

theorem nan_8 (b : Nat) : nan 52 11 b ↔ b % 9223372036854775808 > 0x7ff0000000000000 := by
  unfold nan
  simp only [Nat.reduceAdd, Nat.reducePow, Nat.reduceSub]
  omega

/-- The codes are in the order of the values. -/
theorem code_lt {t : PgType} {x y : V} (hx : HasType t x) (hy : HasType t y) :
    vLt t x y ↔ code t x < code t y := by
  have hsh : ∀ a b : Shape, t.shape = a → t.shape = b → a = b := fun a b h1 h2 => h1.symm.trans h2
  cases x <;> cases y <;> try (cases hsh _ _ hx.1 hy.1)
  · rename_i v w
    obtain ⟨_, h1, h2⟩ := hx
    obtain ⟨_, h3, h4⟩ := hy
    show v < w ↔ (v + _).toNat < (w + _).toNat
    generalize (2 ^ (8 * t.size - 1) : Int) = z at *
    omega
  · exact Iff.rfl
  · rename_i a b
    obtain ⟨h1, h2⟩ := hx
    obtain ⟨_, h3⟩ := hy
    cases t <;> cases h1
    · have h2 : a < 4294967296 := h2
      have h3 : b < 4294967296 := h3
      show realLt 23 8 a b ↔ fcode 2147483648 0x7f800000 0x7fc00000 a <
        fcode 2147483648 0x7f800000 0x7fc00000 b
      rw [fcode_lt _ _ _ _ _ (by omega) (by omega) (by omega) (by omega)]
      unfold realLt
      simp only [nan_4, real_lt 23 8 a b h2 h3, Nat.reduceAdd, Nat.reducePow]
    · have h2 : a < 18446744073709551616 := h2
      have h3 : b < 18446744073709551616 := h3
      show realLt 52 11 a b ↔ fcode 9223372036854775808 0x7ff0000000000000 0x7ff8000000000000 a <
        fcode 9223372036854775808 0x7ff0000000000000 0x7ff8000000000000 b
      rw [fcode_lt _ _ _ _ _ (by omega) (by omega) (by omega) (by omega)]
      unfold realLt
      simp only [nan_8, real_lt 52 11 a b h2 h3, Nat.reduceAdd, Nat.reducePow]
  · rename_i a b
    exact bytesLt_iff a b (hx.2.1.trans hy.2.1.symm) hx.2.2 hy.2.2

theorem code_eq {t : PgType} {x y : V} (hx : HasType t x) (hy : HasType t y) :
    vEq t x y ↔ code t x = code t y := by
  unfold vEq
  rw [code_lt hx hy, code_lt hy hx]
  omega

/-! ## Decoding -/

theorem fdecode_4 (b : Nat) (hb : b < 4294967296) :
    ∃ c, c < 4294967296 ∧ fcode 2147483648 0x7f800000 0x7fc00000 c =
        fcode 2147483648 0x7f800000 0x7fc00000 b ∧
      fcode 2147483648 0x7f800000 0x7fc00000 b ^^^
        (if fcode 2147483648 0x7f800000 0x7fc00000 b &&& signBit 4 ≠ 0 then signBit 4
         else allOnes 4) = c := by
  have hu := fcode_bound 2147483648 0x7f800000 0x7fc00000 b (by omega) (by omega)
  refine ⟨if b % 2147483648 > 0x7f800000 then 0x7fc00000 else
    if b % 2147483648 = 0 then 0 else b, ?_, ?_, ?_⟩
  · repeat' split
    all_goals omega
  · unfold fcode
    dsimp only
    by_cases c1 : b % 2147483648 > 0x7f800000
    · simp only [c1, if_true]; decide
    · by_cases c2 : b % 2147483648 = 0
      · simp only [c1, c2, if_true, if_false]; decide
      · simp only [c1, c2, if_true, if_false]
  · rw [signBit_4, allOnes_4]
    simp only [and_sign 31 _ (by omega : fcode 2147483648 0x7f800000 0x7fc00000 b < 2 ^ (31 + 1))]
    have hc : (if b % 2147483648 > 0x7f800000 then 0x7fc00000 else
      if b % 2147483648 = 0 then 0 else b) < 2 * 2147483648 := by
      repeat' split
      all_goals omega
    unfold fcode
    dsimp only
    generalize (if b % 2147483648 > 0x7f800000 then 0x7fc00000 else
      if b % 2147483648 = 0 then 0 else b) = c at hc
    by_cases h : 2147483648 ≤ c
    · rw [if_pos h, if_neg (by omega), xor_ones 32 _ (by omega)]; omega
    · rw [if_neg h, if_pos (by omega), xor_sign 31 _ (by omega)]; omega

theorem fdecode_8 (b : Nat) (hb : b < 18446744073709551616) :
    ∃ c, c < 18446744073709551616 ∧
      fcode 9223372036854775808 0x7ff0000000000000 0x7ff8000000000000 c =
        fcode 9223372036854775808 0x7ff0000000000000 0x7ff8000000000000 b ∧
      fcode 9223372036854775808 0x7ff0000000000000 0x7ff8000000000000 b ^^^
        (if fcode 9223372036854775808 0x7ff0000000000000 0x7ff8000000000000 b &&& signBit 8 ≠ 0
         then signBit 8 else allOnes 8) = c := by
  have hu := fcode_bound 9223372036854775808 0x7ff0000000000000 0x7ff8000000000000 b
    (by omega) (by omega)
  refine ⟨if b % 9223372036854775808 > 0x7ff0000000000000 then 0x7ff8000000000000 else
    if b % 9223372036854775808 = 0 then 0 else b, ?_, ?_, ?_⟩
  · repeat' split
    all_goals omega
  · unfold fcode
    dsimp only
    by_cases c1 : b % 9223372036854775808 > 0x7ff0000000000000
    · simp only [c1, if_true]; decide
    · by_cases c2 : b % 9223372036854775808 = 0
      · simp only [c1, c2, if_true, if_false]; decide
      · simp only [c1, c2, if_true, if_false]
  · rw [signBit_8, allOnes_8]
    simp only [and_sign 63 _ (by omega :
      fcode 9223372036854775808 0x7ff0000000000000 0x7ff8000000000000 b < 2 ^ (63 + 1))]
    have hc : (if b % 9223372036854775808 > 0x7ff0000000000000 then 0x7ff8000000000000 else
      if b % 9223372036854775808 = 0 then 0 else b) < 2 * 9223372036854775808 := by
      repeat' split
      all_goals omega
    unfold fcode
    dsimp only
    generalize (if b % 9223372036854775808 > 0x7ff0000000000000 then 0x7ff8000000000000 else
      if b % 9223372036854775808 = 0 then 0 else b) = c at hc
    by_cases h : 9223372036854775808 ≤ c
    · rw [if_pos h, if_neg (by omega), xor_ones 64 _ (by omega)]; omega
    · rw [if_neg h, if_pos (by omega), xor_sign 63 _ (by omega)]; omega

/-- Decoding one column gives a value equal to the encoded one. -/
theorem decodeOne_spec {t : PgType} {bytes : List Nat} {x : V} (hx : HasType t x)
    (hl : bytes.length = t.size) (hb : ∀ b ∈ bytes, b < 256) (hv : value bytes = code t x) :
    ∃ d y, decodeOne bytes t.number = .ok d ∧ Exact t d y ∧ HasType t y ∧ vEq t x y := by
  suffices h : ∃ d y, decodeOne bytes t.number = .ok d ∧ Exact t d y ∧ HasType t y ∧
      code t x = code t y by
    obtain ⟨d, y, h1, h2, h3, h4⟩ := h
    exact ⟨d, y, h1, h2, h3, (code_eq hx h3).2 h4⟩
  unfold decodeOne
  rw [lookup_eq]
  cases x with
  | int v =>
    have hu : bytes.foldl (fun u b => (u <<< 8) % 18446744073709551616 ||| b) 0 = code t (.int v) := by
      rw [decode_value bytes hb (by rw [hl]; cases t <;> first | decide | cases hx.1), hv]
    simp only [hu]
    obtain ⟨h1, h2, h3⟩ := hx
    cases t <;> cases h1 <;>
      simp (config := { decide := true }) only [PgType.size, PgType.shape, kindOf, code,
        Nat.reduceMul, Nat.reduceSub, Nat.reducePow, Int.reducePow, if_true,
        if_false, Int.reduceNeg] at *
    · refine ⟨_, .int v, rfl, ⟨?_, ?_⟩, ⟨rfl, h2, h3⟩, rfl⟩ <;>
        rw [signBit_2, xor_sign 15 _ (by omega)]
      · show ((signExtend _ _ : Nat) : Int) % 65536 = v % 65536
        unfold signExtend
        split <;> omega
      · intro v' e
        cases e
        unfold signExtend
        refine congrArg Datum.num ?_
        split <;> omega
    all_goals
      refine ⟨_, .int v, rfl, ⟨?_, ?_⟩, ⟨rfl, h2, h3⟩, rfl⟩
      · first
        | rw [signBit_4, xor_sign 31 _ (by omega)]
          show ((signExtend _ _ : Nat) : Int) % 4294967296 = v % 4294967296
          unfold signExtend
          split <;> omega
        | rw [signBit_8, xor_sign 63 _ (by omega)]
          show ((_ : Nat) : Int) % 18446744073709551616 = v % 18446744073709551616
          omega
      · intro v' e
        cases e
        first
        | rw [signBit_4, xor_sign 31 _ (by omega)]
          unfold signExtend
          refine congrArg Datum.num ?_
          split <;> omega
        | rw [signBit_8, xor_sign 63 _ (by omega)]
          refine congrArg Datum.num ?_
          omega
  | nat n =>
    have hu : bytes.foldl (fun u b => (u <<< 8) % 18446744073709551616 ||| b) 0 = code t (.nat n) := by
      rw [decode_value bytes hb (by rw [hl]; cases t <;> first | decide | cases hx.1), hv]
    simp only [hu]
    obtain ⟨h1, h2⟩ := hx
    cases t <;> cases h1 <;> refine ⟨_, .nat n, rfl, ⟨?_, (by intro _ e; cases e)⟩, ⟨rfl, h2⟩, rfl⟩
    · show n % 256 % 256 = n
      have h2 : n < 256 := h2
      omega
    · show n % 256 % 256 = n
      have h2 : n < 256 := h2
      omega
    · show n % 4294967296 % 4294967296 = n
      have h2 : n < 4294967296 := h2
      omega
  | float b =>
    have hu : bytes.foldl (fun u b => (u <<< 8) % 18446744073709551616 ||| b) 0 = code t (.float b) := by
      rw [decode_value bytes hb (by rw [hl]; cases t <;> first | decide | cases hx.1), hv]
    simp only [hu]
    obtain ⟨h1, h2⟩ := hx
    cases t <;> cases h1
    · have h2 : b < 4294967296 := h2
      obtain ⟨c, hc, he, hd⟩ := fdecode_4 b h2
      refine ⟨.num c, .float c, ?_, ⟨?_, (by intro _ e; cases e)⟩, ⟨rfl, hc⟩, he.symm⟩
      · have hu := fcode_bound 2147483648 0x7f800000 0x7fc00000 b (by omega) (by omega)
        have hm : fcode 2147483648 0x7f800000 0x7fc00000 b % 4294967296 =
          fcode 2147483648 0x7f800000 0x7fc00000 b := Nat.mod_eq_of_lt (by omega)
        rw [← hd]
        show R.ok (Datum.num (fcode 2147483648 0x7f800000 0x7fc00000 b % 4294967296 ^^^
          (if fcode 2147483648 0x7f800000 0x7fc00000 b % 4294967296 &&& signBit 4 ≠ 0 then signBit 4
           else allOnes 4))) = _
        rw [hm]
      · exact Nat.mod_eq_of_lt hc
    · have h2 : b < 18446744073709551616 := h2
      obtain ⟨c, hc, he, hd⟩ := fdecode_8 b h2
      refine ⟨.num c, .float c, ?_, ⟨?_, (by intro _ e; cases e)⟩, ⟨rfl, hc⟩, he.symm⟩
      · rw [← hd]; rfl
      · exact Nat.mod_eq_of_lt hc
  | bytes b =>
    obtain ⟨h1, h2, h3⟩ := hx
    rw [h1]
    refine ⟨.ptr bytes, .bytes bytes, rfl, ⟨rfl, (by intro _ e; cases e)⟩, ⟨h1, hl, hb⟩, hv.symm⟩

end Verif.KeyBitmap
