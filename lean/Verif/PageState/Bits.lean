import Verif.PageState.Model

/-!
# The bits of the state word

`Word` stands for the 64-bit state word.  Here the masks of
include/btree/page_state.h:21-31 and the expressions page_state.c builds with
them are written out, and each is shown to do to the packed word what the model
does to the fields.
-/

namespace Verif.PageState

/-- `PAGE_STATE_LOCKED_FLAG`, page_state.h:21. -/
def LOCKED_FLAG : Nat := 0x0000000000040000
/-- `PAGE_STATE_NO_READ_FLAG`, page_state.h:22. -/
def NO_READ_FLAG : Nat := 0x0000000000080000
/-- `PAGE_STATE_CHANGE_COUNT_ONE`, page_state.h:23. -/
def CHANGE_COUNT_ONE : Nat := 0x0000000000100000
/-- `PAGE_STATE_CHANGE_COUNT_MASK`, page_state.h:24. -/
def CHANGE_COUNT_MASK : Nat := 0x000FFFFFFFF00000
/-- `PAGE_STATE_CHANGE_NON_WAITERS_MASK`, page_state.h:25. -/
def NON_WAITERS_MASK : Nat := 0x000FFFFFFFFC0000
/-- `PAGE_STATE_CHANGE_USAGE_COUNT_MASK`, page_state.h:26. -/
def USAGE_COUNT_MASK : Nat := 0x00F0000000000000
/-- `PAGE_STATE_LIST_TAIL_MASK`, page_state.h:29; also `PAGE_STATE_INVALID_PROCNO`, 31. -/
def LIST_TAIL_MASK : Nat := 0x000000000003FFFF

/-- `~m` for a 64-bit value, as used in page_state.c:155, 291, 346, 385, 1125-1134. -/
def not64 (m : Nat) : Nat := 0xFFFFFFFFFFFFFFFF ^^^ m

/-- The tail field: a process number, or `PAGE_STATE_INVALID_PROCNO`. -/
def encTail : Option Nat → Nat
  | none => LIST_TAIL_MASK
  | some p => p

/-- The packed state word of a record of fields (`OrioleDBPageHeader.state`,
include/orioledb.h; fields by page_state.h:21-31). -/
def enc (w : Word) : Nat :=
  encTail w.tail ||| (w.locked.toNat <<< 18) ||| (w.noRead.toNat <<< 19) ||| (w.cc <<< 20) |||
    (w.usage <<< 52)

/-- Fields that fit: process numbers below `PAGE_STATE_INVALID_PROCNO`
(`Assert(pgprocnum < max_procs)`, page_state.c:137), 32 bits of change count, 4 of
usage count. -/
def Word.fits (w : Word) : Prop :=
  (∀ p, w.tail = some p → p < 262143) ∧ w.cc < 4294967296 ∧ w.usage < 16

theorem testBit_ge {x n i : Nat} (h : x < 2 ^ n) (hi : n ≤ i) : x.testBit i = false :=
  Nat.testBit_lt_two_pow (Nat.lt_of_lt_of_le h (Nat.pow_le_pow_right (by omega) hi))

theorem bool_testBit (b : Bool) (i : Nat) : b.toNat.testBit i = (decide (i = 0) && b) := by
  cases b with
  | false => simp
  | true =>
    cases i with
    | zero => simp
    | succ i => simp [Nat.testBit_succ]

theorem mask_testBit (n k i : Nat) : ((2 ^ n - 1) <<< k).testBit i = decide (k ≤ i ∧ i < k + n) := by
  rw [Nat.testBit_shiftLeft, Nat.testBit_two_pow_sub_one]
  by_cases h : k ≤ i <;> simp [h]; omega

theorem encTail_lt {w : Word} (h : w.fits) : encTail w.tail < 2 ^ 18 := by
  cases ht : w.tail with
  | none => simp [encTail, LIST_TAIL_MASK]
  | some p =>
    have := h.1 p ht
    simp only [encTail]; omega

/-- Bit `i` of the packed word. -/
theorem enc_testBit {w : Word} (h : w.fits) (i : Nat) :
    (enc w).testBit i =
      if i < 18 then (encTail w.tail).testBit i
      else if i = 18 then w.locked
      else if i = 19 then w.noRead
      else if i < 52 then w.cc.testBit (i - 20)
      else w.usage.testBit (i - 52) := by
  have h1 := encTail_lt h
  obtain ⟨_, h2, h3⟩ := h
  have t : 18 ≤ i → (encTail w.tail).testBit i = false := testBit_ge h1
  have c : 32 ≤ i - 20 → w.cc.testBit (i - 20) = false :=
    testBit_ge (n := 32) (by omega)
  simp only [enc, Nat.testBit_or, Nat.testBit_shiftLeft, bool_testBit]
  by_cases a1 : i < 18
  · have e1 : ¬ i ≥ 18 := by omega
    have e2 : ¬ i ≥ 19 := by omega
    have e3 : ¬ i ≥ 20 := by omega
    have e4 : ¬ i ≥ 52 := by omega
    simp [a1, e1, e2, e3, e4]
  · rw [t (by omega), if_neg a1]
    by_cases a2 : i = 18
    · subst a2; simp
    · by_cases a3 : i = 19
      · subst a3; simp
      · have e1 : ¬ i - 18 = 0 := by omega
        have e2 : ¬ i - 19 = 0 := by omega
        have e3 : i ≥ 20 := by omega
        by_cases a4 : i < 52
        · have e4 : ¬ i ≥ 52 := by omega
          simp [a2, a3, a4, e1, e2, e3, e4]
        · have e4 : i ≥ 52 := by omega
          simp [a2, a3, a4, e1, e2, e3, e4, c (by omega)]

theorem not64_testBit (n k i : Nat) : (not64 ((2 ^ n - 1) <<< k)).testBit i =
    (decide (i < 64) ^^ decide (k ≤ i ∧ i < k + n)) := by
  have : (0xFFFFFFFFFFFFFFFF : Nat) = 2 ^ 64 - 1 := by decide
  rw [not64, Nat.testBit_xor, mask_testBit, this, Nat.testBit_two_pow_sub_one]

/-- The packed word determines the fields. -/
theorem enc_inj {v w : Word} (hv : v.fits) (hw : w.fits) (h : enc v = enc w) : v = w := by
  have hb : ∀ i, (enc v).testBit i = (enc w).testBit i := by rw [h]; intro i; rfl
  have ht : encTail v.tail = encTail w.tail := by
    apply Nat.eq_of_testBit_eq
    intro i
    by_cases hi : i < 18
    · have := hb i; rw [enc_testBit hv, enc_testBit hw, if_pos hi, if_pos hi] at this; exact this
    · rw [testBit_ge (encTail_lt hv) (by omega), testBit_ge (encTail_lt hw) (by omega)]
  have hl : v.locked = w.locked := by
    have := hb 18; rw [enc_testBit hv, enc_testBit hw] at this; simpa using this
  have hn : v.noRead = w.noRead := by
    have := hb 19; rw [enc_testBit hv, enc_testBit hw] at this; simpa using this
  have hc : v.cc = w.cc := by
    apply Nat.eq_of_testBit_eq
    intro i
    by_cases hi : i < 32
    · have := hb (i + 20)
      rw [enc_testBit hv, enc_testBit hw] at this
      simpa [show ¬ i + 20 < 18 by omega, show ¬ i + 20 = 18 by omega, show ¬ i + 20 = 19 by omega,
        show i + 20 < 52 by omega] using this
    · rw [testBit_ge (n := 32) (by have := hv.2.1; omega) (by omega),
        testBit_ge (n := 32) (by have := hw.2.1; omega) (by omega)]
  have hu : v.usage = w.usage := by
    apply Nat.eq_of_testBit_eq
    intro i
    have := hb (i + 52)
    rw [enc_testBit hv, enc_testBit hw] at this
    simpa [show ¬ i + 52 < 18 by omega, show ¬ i + 52 = 18 by omega, show ¬ i + 52 = 19 by omega,
        show ¬ i + 52 < 52 by omega] using this
  have htl : v.tail = w.tail := by
    cases hvt : v.tail with
    | none =>
      cases hwt : w.tail with
      | none => rfl
      | some q =>
        rw [hvt, hwt] at ht; have := hw.1 q hwt
        simp only [encTail, LIST_TAIL_MASK] at ht; omega
    | some p =>
      cases hwt : w.tail with
      | none =>
        rw [hvt, hwt] at ht; have := hv.1 p hvt
        simp only [encTail, LIST_TAIL_MASK] at ht; omega
      | some q => rw [hvt, hwt] at ht; simp only [encTail] at ht; rw [ht]
  cases v; cases w; simp_all

theorem masks_shape : LOCKED_FLAG = (2 ^ 1 - 1) <<< 18 ∧ NO_READ_FLAG = (2 ^ 1 - 1) <<< 19 ∧
    CHANGE_COUNT_MASK = (2 ^ 32 - 1) <<< 20 ∧ NON_WAITERS_MASK = (2 ^ 34 - 1) <<< 18 ∧
    USAGE_COUNT_MASK = (2 ^ 4 - 1) <<< 52 ∧ LIST_TAIL_MASK = (2 ^ 18 - 1) <<< 0 ∧
    CHANGE_COUNT_ONE = 1 <<< 20 := by decide

theorem one_bit (b : Bool) (k i : Nat) :
    (if b then (2 ^ 1 - 1) <<< k else 0).testBit i = (decide (i = k) && b) := by
  cases b with
  | false => simp
  | true =>
    rw [if_pos rfl, mask_testBit, Bool.and_true]
    congr 1; apply propext; constructor <;> intro h <;> omega

/-- `O_PAGE_STATE_IS_LOCKED`, page_state.h:34. -/
theorem is_locked {w : Word} (h : w.fits) : enc w &&& LOCKED_FLAG ≠ 0 ↔ w.locked = true := by
  have : enc w &&& LOCKED_FLAG = if w.locked then LOCKED_FLAG else 0 := by
    apply Nat.eq_of_testBit_eq
    intro i
    rw [masks_shape.1, one_bit, Nat.testBit_and, enc_testBit h, mask_testBit]
    grind
  rw [this]
  cases w.locked <;> simp [LOCKED_FLAG]

/-- `O_PAGE_STATE_READ_IS_BLOCKED`, page_state.h:37. -/
theorem read_is_blocked {w : Word} (h : w.fits) :
    enc w &&& NO_READ_FLAG ≠ 0 ↔ w.noRead = true := by
  have : enc w &&& NO_READ_FLAG = if w.noRead then NO_READ_FLAG else 0 := by
    apply Nat.eq_of_testBit_eq
    intro i
    rw [masks_shape.2.1, one_bit, Nat.testBit_and, enc_testBit h, mask_testBit]
    grind
  rw [this]
  cases w.noRead <;> simp [NO_READ_FLAG]

/-- `O_PAGE_STATE_LOCK`, page_state.h:35, and the fetch-or of page_state.c:768. -/
theorem set_locked {w : Word} (h : w.fits) :
    enc w ||| LOCKED_FLAG = enc { w with locked := true } := by
  have h' : Word.fits { w with locked := true } := h
  apply Nat.eq_of_testBit_eq
  intro i
  rw [masks_shape.1, Nat.testBit_or, enc_testBit h, enc_testBit h', mask_testBit]
  dsimp only
  grind

/-- The fetch-or of `page_block_reads`, page_state.c:855. -/
theorem set_noRead {w : Word} (h : w.fits) :
    enc w ||| NO_READ_FLAG = enc { w with noRead := true } := by
  have h' : Word.fits { w with noRead := true } := h
  apply Nat.eq_of_testBit_eq
  intro i
  rw [masks_shape.2.1, Nat.testBit_or, enc_testBit h, enc_testBit h', mask_testBit]
  dsimp only
  grind

/-- `state & PAGE_STATE_LIST_TAIL_MASK`. -/
theorem get_tail {w : Word} (h : w.fits) : enc w &&& LIST_TAIL_MASK = encTail w.tail := by
  apply Nat.eq_of_testBit_eq
  intro i
  rw [masks_shape.2.2.2.2.2.1, Nat.testBit_and, enc_testBit h, mask_testBit]
  by_cases hi : i < 18
  · simp [hi]
  · simp [hi, testBit_ge (encTail_lt h) (show 18 ≤ i by omega)]

/-- A waiter makes itself the tail, page_state.c:155-156. -/
theorem set_tail {w : Word} (h : w.fits) {p : Nat} (hp : p < 262143) :
    (enc w &&& not64 LIST_TAIL_MASK) ||| p = enc { w with tail := some p } := by
  have h' : Word.fits { w with tail := some p } := ⟨by intro q hq; cases hq; exact hp, h.2⟩
  apply Nat.eq_of_testBit_eq
  intro i
  rw [masks_shape.2.2.2.2.2.1, Nat.testBit_or, Nat.testBit_and, enc_testBit h, enc_testBit h',
    not64_testBit]
  have hu : 64 ≤ i → w.usage.testBit (i - 52) = false := fun hi =>
    testBit_ge (n := 4) (by have := h.2.2; omega) (by omega)
  have hp' : 18 ≤ i → p.testBit i = false := testBit_ge (by omega)
  simp only [encTail]
  grind

/-- `state & PAGE_STATE_CHANGE_COUNT_MASK`. -/
theorem get_cc {w : Word} (h : w.fits) : enc w &&& CHANGE_COUNT_MASK = w.cc <<< 20 := by
  apply Nat.eq_of_testBit_eq
  intro i
  rw [masks_shape.2.2.1, Nat.testBit_and, enc_testBit h, mask_testBit, Nat.testBit_shiftLeft]
  have hc : 52 ≤ i → w.cc.testBit (i - 20) = false := fun hi =>
    testBit_ge (n := 32) (by have := h.2.1; omega) (by omega)
  grind

/-- The comparison of change counts, page_contents.c:199, page_state.c:375, 692. -/
theorem same_cc {v w : Word} (hv : v.fits) (hw : w.fits) :
    (enc v &&& CHANGE_COUNT_MASK = enc w &&& CHANGE_COUNT_MASK) ↔ v.cc = w.cc := by
  rw [get_cc hv, get_cc hw, Nat.shiftLeft_eq, Nat.shiftLeft_eq]
  omega

/-- What is left of the change count when the state is passed as `uint32`,
page_state.c:678. -/
theorem trunc32_cc {w : Word} (h : w.fits) :
    (enc w % 4294967296) &&& CHANGE_COUNT_MASK = (w.cc % 4096) <<< 20 := by
  apply Nat.eq_of_testBit_eq
  intro i
  rw [masks_shape.2.2.1, Nat.testBit_and, mask_testBit, Nat.testBit_shiftLeft,
    show (4294967296 : Nat) = 2 ^ 32 by decide, show (4096 : Nat) = 2 ^ 12 by decide,
    Nat.testBit_mod_two_pow, Nat.testBit_mod_two_pow, enc_testBit h]
  grind

/-- The agreement `Assert`ed at page_state.c:842. -/
theorem same_nonWaiters {v w : Word} (hv : v.fits) (hw : w.fits) :
    (enc v &&& NON_WAITERS_MASK = enc w &&& NON_WAITERS_MASK) ↔
      (v.locked = w.locked ∧ v.noRead = w.noRead ∧ v.cc = w.cc) := by
  constructor
  · intro h
    have hb : ∀ i, 18 ≤ i → i < 52 → (enc v).testBit i = (enc w).testBit i := by
      intro i h1 h2
      have : (enc v &&& NON_WAITERS_MASK).testBit i = (enc w &&& NON_WAITERS_MASK).testBit i := by
        rw [h]
      rw [masks_shape.2.2.2.1, Nat.testBit_and, Nat.testBit_and, mask_testBit] at this
      simpa [h1, h2] using this
    refine ⟨?_, ?_, ?_⟩
    · have := hb 18 (by omega) (by omega)
      rw [enc_testBit hv, enc_testBit hw] at this; simpa using this
    · have := hb 19 (by omega) (by omega)
      rw [enc_testBit hv, enc_testBit hw] at this; simpa using this
    · apply Nat.eq_of_testBit_eq
      intro i
      by_cases hi : i < 32
      · have := hb (i + 20) (by omega) (by omega)
        rw [enc_testBit hv, enc_testBit hw] at this
        simpa [show ¬ i + 20 < 18 by omega, show ¬ i + 20 = 18 by omega,
          show ¬ i + 20 = 19 by omega, show i + 20 < 52 by omega] using this
      · rw [testBit_ge (n := 32) (by have := hv.2.1; omega) (by omega),
          testBit_ge (n := 32) (by have := hw.2.1; omega) (by omega)]
  · rintro ⟨h1, h2, h3⟩
    apply Nat.eq_of_testBit_eq
    intro i
    rw [masks_shape.2.2.2.1, Nat.testBit_and, Nat.testBit_and, enc_testBit hv, enc_testBit hw,
      mask_testBit, h1, h2, h3]
    grind

/-- `newState` at page_state.c:1125-1142. -/
def unlBits (state newTail : Nat) : Nat :=
  let n1 := state &&& not64 (LIST_TAIL_MASK ||| LOCKED_FLAG ||| NO_READ_FLAG)
  let n2 :=
    if state &&& NO_READ_FLAG ≠ 0 then
      let changeCount := n1 &&& CHANGE_COUNT_MASK
      let n3 := n1 &&& not64 CHANGE_COUNT_MASK
      n3 ||| ((changeCount + CHANGE_COUNT_ONE) &&& CHANGE_COUNT_MASK)
    else n1
  n2 ||| newTail

theorem low_mask : LIST_TAIL_MASK ||| LOCKED_FLAG ||| NO_READ_FLAG = (2 ^ 20 - 1) <<< 0 := by
  decide

theorem land_mask (x n k : Nat) : x &&& ((2 ^ n - 1) <<< k) = (x / 2 ^ k % 2 ^ n) <<< k := by
  apply Nat.eq_of_testBit_eq
  intro i
  rw [Nat.testBit_and, mask_testBit, Nat.testBit_shiftLeft, Nat.testBit_mod_two_pow,
    Nat.testBit_div_two_pow]
  by_cases h : k ≤ i
  · rw [show i - k + k = i by omega]
    by_cases h2 : i < k + n
    · simp [h, h2, show i - k < n by omega]
    · simp [h, h2, show ¬ i - k < n by omega]
  · simp [h]

/-- The word the unlock publishes is `unlWord`. -/
theorem unl_bits {w : Word} (h : w.fits) {t : Option Nat} (ht : ∀ p, t = some p → p < 262143) :
    unlBits (enc w) (encTail t) = enc (unlWord w t) := by
  have h' : Word.fits (unlWord w t) := by
    refine ⟨ht, ?_, h.2.2⟩
    simp only [unlWord]
    have := h.2.1
    split <;> omega
  have htl : encTail t < 2 ^ 18 := by
    cases t with
    | none => simp [encTail, LIST_TAIL_MASK]
    | some p => have := ht p rfl; simp only [encTail]; omega
  have htb : ∀ i, 18 ≤ i → (encTail t).testBit i = false := fun i hi => testBit_ge htl hi
  have hu : ∀ i, 64 ≤ i → w.usage.testBit (i - 52) = false := fun i hi =>
    testBit_ge (n := 4) (by have := h.2.2; omega) (by omega)
  have hn1 : ∀ i, (enc w &&& not64 (LIST_TAIL_MASK ||| LOCKED_FLAG ||| NO_READ_FLAG)).testBit i =
      if i < 20 then false else (enc w).testBit i := by
    intro i
    rw [low_mask, Nat.testBit_and, not64_testBit, enc_testBit h]
    have := hu i
    grind
  have hcc : (enc w &&& not64 (LIST_TAIL_MASK ||| LOCKED_FLAG ||| NO_READ_FLAG)) &&&
      CHANGE_COUNT_MASK = w.cc <<< 20 := by
    rw [← get_cc h]
    apply Nat.eq_of_testBit_eq
    intro i
    rw [Nat.testBit_and, hn1, Nat.testBit_and, masks_shape.2.2.1, mask_testBit]
    grind
  apply Nat.eq_of_testBit_eq
  intro i
  unfold unlBits
  dsimp only
  by_cases hr : w.noRead = true
  · rw [if_pos ((read_is_blocked h).2 hr), hcc]
    have h1 : ((w.cc <<< 20 + CHANGE_COUNT_ONE) &&& CHANGE_COUNT_MASK) =
        ((w.cc + 1) % 4294967296) <<< 20 := by
      have : w.cc <<< 20 + CHANGE_COUNT_ONE = (w.cc + 1) * 2 ^ 20 := by
        rw [Nat.shiftLeft_eq]; simp only [CHANGE_COUNT_ONE]; omega
      rw [this, masks_shape.2.2.1, land_mask, Nat.mul_div_cancel _ (by decide)]
    rw [h1, Nat.testBit_or, Nat.testBit_or, Nat.testBit_and, hn1, masks_shape.2.2.1,
      not64_testBit, enc_testBit h, enc_testBit h', Nat.testBit_shiftLeft]
    have hu := hu i
    have htb := htb i
    have hcb : 52 ≤ i → ((w.cc + 1) % 4294967296).testBit (i - 20) = false := fun hi =>
      testBit_ge (n := 32) (Nat.mod_lt _ (by decide)) (by omega)
    simp only [unlWord, hr, if_true]
    grind
  · rw [if_neg (fun hc => hr ((read_is_blocked h).1 hc)), Nat.testBit_or, hn1, enc_testBit h,
      enc_testBit h']
    have htb := htb i
    simp only [unlWord, hr]
    grind

/-- A word with every field in use. -/
example : Word.fits ⟨some 5, true, true, 4294967295, 7⟩ ∧
    enc ⟨some 5, true, true, 4294967295, 7⟩ = 0x007FFFFFFFFC0005 ∧
    unlBits 0x007FFFFFFFFC0005 LIST_TAIL_MASK = 0x007000000003FFFF := by
  refine ⟨⟨by intro p hp; cases hp; decide, by decide, by decide⟩, by decide, by decide⟩

end Verif.PageState
