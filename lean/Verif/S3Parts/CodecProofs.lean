import Verif.S3Parts.Codec

/-! # The 32 bits of a part: proofs -/

namespace Verif.S3Parts

theorem lt32 {i : Nat} (h : i < 32) : i = 0 ∨ i = 1 ∨ i = 2 ∨ i = 3 ∨ i = 4 ∨ i = 5 ∨ i = 6 ∨ i = 7 ∨ i = 8 ∨ i = 9 ∨
    i = 10 ∨ i = 11 ∨ i = 12 ∨ i = 13 ∨ i = 14 ∨ i = 15 ∨ i = 16 ∨ i = 17 ∨ i = 18 ∨ i = 19 ∨ i = 20 ∨ i = 21 ∨
    i = 22 ∨ i = 23 ∨ i = 24 ∨ i = 25 ∨ i = 26 ∨ i = 27 ∨ i = 28 ∨ i = 29 ∨ i = 30 ∨ i = 31 := by omega

/-- Two words are equal if all their bits are. -/
theorem ext32 {a b : BitVec 32}
    (h0 : a.getLsbD 0 = b.getLsbD 0) (h1 : a.getLsbD 1 = b.getLsbD 1) (h2 : a.getLsbD 2 = b.getLsbD 2) (h3 : a.getLsbD 3 = b.getLsbD 3)
    (h4 : a.getLsbD 4 = b.getLsbD 4) (h5 : a.getLsbD 5 = b.getLsbD 5) (h6 : a.getLsbD 6 = b.getLsbD 6) (h7 : a.getLsbD 7 = b.getLsbD 7)
    (h8 : a.getLsbD 8 = b.getLsbD 8) (h9 : a.getLsbD 9 = b.getLsbD 9) (h10 : a.getLsbD 10 = b.getLsbD 10) (h11 : a.getLsbD 11 = b.getLsbD 11)
    (h12 : a.getLsbD 12 = b.getLsbD 12) (h13 : a.getLsbD 13 = b.getLsbD 13) (h14 : a.getLsbD 14 = b.getLsbD 14) (h15 : a.getLsbD 15 = b.getLsbD 15)
    (h16 : a.getLsbD 16 = b.getLsbD 16) (h17 : a.getLsbD 17 = b.getLsbD 17) (h18 : a.getLsbD 18 = b.getLsbD 18) (h19 : a.getLsbD 19 = b.getLsbD 19)
    (h20 : a.getLsbD 20 = b.getLsbD 20) (h21 : a.getLsbD 21 = b.getLsbD 21) (h22 : a.getLsbD 22 = b.getLsbD 22) (h23 : a.getLsbD 23 = b.getLsbD 23)
    (h24 : a.getLsbD 24 = b.getLsbD 24) (h25 : a.getLsbD 25 = b.getLsbD 25) (h26 : a.getLsbD 26 = b.getLsbD 26) (h27 : a.getLsbD 27 = b.getLsbD 27)
    (h28 : a.getLsbD 28 = b.getLsbD 28) (h29 : a.getLsbD 29 = b.getLsbD 29) (h30 : a.getLsbD 30 = b.getLsbD 30) (h31 : a.getLsbD 31 = b.getLsbD 31)
   : a = b := by
  apply BitVec.eq_of_getLsbD_eq
  intro i hi
  rcases lt32 hi with rfl|rfl|rfl|rfl|rfl|rfl|rfl|rfl|rfl|rfl|rfl|rfl|rfl|rfl|rfl|rfl|rfl|rfl|rfl|rfl|rfl|rfl|rfl|rfl|rfl|
    rfl|rfl|rfl|rfl|rfl|rfl|rfl <;> assumption

/-- Look at all bits. -/
macro "bits" : tactic => `(tactic| (
  simp only [getStatus, setStatus, getLocks, getUsage, setUsage, locksMask, statusMask, usageMask, dirtyFlag, writingFlag,
    schedFlag]
  apply ext32 <;> simp))

theorem l_ss0 (v : BitVec 32)  : getLocks (setStatus v 0#32) = getLocks (v) := by bits
theorem s_ss0 (v : BitVec 32)  : getStatus (setStatus v 0#32) = 0#32 := by bits
theorem u_ss0 (v : BitVec 32)  : getUsage (setStatus v 0#32) = getUsage (v) := by bits
theorem d_ss0 (v : BitVec 32)  : (setStatus v 0#32) &&& dirtyFlag = (v) &&& dirtyFlag := by bits
theorem w_ss0 (v : BitVec 32)  : (setStatus v 0#32) &&& writingFlag = (v) &&& writingFlag := by bits
theorem h_ss0 (v : BitVec 32)  : (setStatus v 0#32) &&& schedFlag = (v) &&& schedFlag := by bits

theorem l_ss1 (v : BitVec 32)  : getLocks (setStatus v 1#32) = getLocks (v) := by bits
theorem s_ss1 (v : BitVec 32)  : getStatus (setStatus v 1#32) = 1#32 := by bits
theorem u_ss1 (v : BitVec 32)  : getUsage (setStatus v 1#32) = getUsage (v) := by bits
theorem d_ss1 (v : BitVec 32)  : (setStatus v 1#32) &&& dirtyFlag = (v) &&& dirtyFlag := by bits
theorem w_ss1 (v : BitVec 32)  : (setStatus v 1#32) &&& writingFlag = (v) &&& writingFlag := by bits
theorem h_ss1 (v : BitVec 32)  : (setStatus v 1#32) &&& schedFlag = (v) &&& schedFlag := by bits

theorem l_ss2 (v : BitVec 32)  : getLocks (setStatus v 2#32) = getLocks (v) := by bits
theorem s_ss2 (v : BitVec 32)  : getStatus (setStatus v 2#32) = 2#32 := by bits
theorem u_ss2 (v : BitVec 32)  : getUsage (setStatus v 2#32) = getUsage (v) := by bits
theorem d_ss2 (v : BitVec 32)  : (setStatus v 2#32) &&& dirtyFlag = (v) &&& dirtyFlag := by bits
theorem w_ss2 (v : BitVec 32)  : (setStatus v 2#32) &&& writingFlag = (v) &&& writingFlag := by bits
theorem h_ss2 (v : BitVec 32)  : (setStatus v 2#32) &&& schedFlag = (v) &&& schedFlag := by bits

theorem l_ss3 (v : BitVec 32)  : getLocks (setStatus v 3#32) = getLocks (v) := by bits
theorem s_ss3 (v : BitVec 32)  : getStatus (setStatus v 3#32) = 3#32 := by bits
theorem u_ss3 (v : BitVec 32)  : getUsage (setStatus v 3#32) = getUsage (v) := by bits
theorem d_ss3 (v : BitVec 32)  : (setStatus v 3#32) &&& dirtyFlag = (v) &&& dirtyFlag := by bits
theorem w_ss3 (v : BitVec 32)  : (setStatus v 3#32) &&& writingFlag = (v) &&& writingFlag := by bits
theorem h_ss3 (v : BitVec 32)  : (setStatus v 3#32) &&& schedFlag = (v) &&& schedFlag := by bits

theorem l_su (v : BitVec 32) (u : BitVec 32) : getLocks (setUsage v u) = getLocks (v) := by bits
theorem s_su (v : BitVec 32) (u : BitVec 32) : getStatus (setUsage v u) = getStatus (v) := by bits
theorem u_su (v : BitVec 32) (u : BitVec 32) : getUsage (setUsage v u) = u &&& 127#32 := by bits
theorem d_su (v : BitVec 32) (u : BitVec 32) : (setUsage v u) &&& dirtyFlag = (v) &&& dirtyFlag := by bits
theorem w_su (v : BitVec 32) (u : BitVec 32) : (setUsage v u) &&& writingFlag = (v) &&& writingFlag := by bits
theorem h_su (v : BitVec 32) (u : BitVec 32) : (setUsage v u) &&& schedFlag = (v) &&& schedFlag := by bits

theorem l_os (v : BitVec 32)  : getLocks (v ||| schedFlag) = getLocks (v) := by bits
theorem s_os (v : BitVec 32)  : getStatus (v ||| schedFlag) = getStatus (v) := by bits
theorem u_os (v : BitVec 32)  : getUsage (v ||| schedFlag) = getUsage (v) := by bits
theorem d_os (v : BitVec 32)  : (v ||| schedFlag) &&& dirtyFlag = (v) &&& dirtyFlag := by bits
theorem w_os (v : BitVec 32)  : (v ||| schedFlag) &&& writingFlag = (v) &&& writingFlag := by bits
theorem h_os (v : BitVec 32)  : (v ||| schedFlag) &&& schedFlag = schedFlag := by bits

theorem l_od (v : BitVec 32)  : getLocks (v ||| dirtyFlag) = getLocks (v) := by bits
theorem s_od (v : BitVec 32)  : getStatus (v ||| dirtyFlag) = getStatus (v) := by bits
theorem u_od (v : BitVec 32)  : getUsage (v ||| dirtyFlag) = getUsage (v) := by bits
theorem d_od (v : BitVec 32)  : (v ||| dirtyFlag) &&& dirtyFlag = dirtyFlag := by bits
theorem w_od (v : BitVec 32)  : (v ||| dirtyFlag) &&& writingFlag = (v) &&& writingFlag := by bits
theorem h_od (v : BitVec 32)  : (v ||| dirtyFlag) &&& schedFlag = (v) &&& schedFlag := by bits

theorem l_wg (v : BitVec 32)  : getLocks ((v &&& ~~~(dirtyFlag ||| schedFlag)) ||| writingFlag) = getLocks (v) := by bits
theorem s_wg (v : BitVec 32)  : getStatus ((v &&& ~~~(dirtyFlag ||| schedFlag)) ||| writingFlag) = getStatus (v) := by bits
theorem u_wg (v : BitVec 32)  : getUsage ((v &&& ~~~(dirtyFlag ||| schedFlag)) ||| writingFlag) = getUsage (v) := by bits
theorem d_wg (v : BitVec 32)  : ((v &&& ~~~(dirtyFlag ||| schedFlag)) ||| writingFlag) &&& dirtyFlag = 0#32 := by bits
theorem w_wg (v : BitVec 32)  : ((v &&& ~~~(dirtyFlag ||| schedFlag)) ||| writingFlag) &&& writingFlag = writingFlag := by bits
theorem h_wg (v : BitVec 32)  : ((v &&& ~~~(dirtyFlag ||| schedFlag)) ||| writingFlag) &&& schedFlag = 0#32 := by bits

theorem l_wn (v : BitVec 32)  : getLocks (v &&& ~~~writingFlag) = getLocks (v) := by bits
theorem s_wn (v : BitVec 32)  : getStatus (v &&& ~~~writingFlag) = getStatus (v) := by bits
theorem u_wn (v : BitVec 32)  : getUsage (v &&& ~~~writingFlag) = getUsage (v) := by bits
theorem d_wn (v : BitVec 32)  : (v &&& ~~~writingFlag) &&& dirtyFlag = (v) &&& dirtyFlag := by bits
theorem w_wn (v : BitVec 32)  : (v &&& ~~~writingFlag) &&& writingFlag = 0#32 := by bits
theorem h_wn (v : BitVec 32)  : (v &&& ~~~writingFlag) &&& schedFlag = (v) &&& schedFlag := by bits

theorem l_nw (v : BitVec 32)  : getLocks ((v &&& ~~~writingFlag) ||| (dirtyFlag ||| schedFlag)) = getLocks (v) := by bits
theorem s_nw (v : BitVec 32)  : getStatus ((v &&& ~~~writingFlag) ||| (dirtyFlag ||| schedFlag)) = getStatus (v) := by bits
theorem u_nw (v : BitVec 32)  : getUsage ((v &&& ~~~writingFlag) ||| (dirtyFlag ||| schedFlag)) = getUsage (v) := by bits
theorem d_nw (v : BitVec 32)  : ((v &&& ~~~writingFlag) ||| (dirtyFlag ||| schedFlag)) &&& dirtyFlag = dirtyFlag := by bits
theorem w_nw (v : BitVec 32)  : ((v &&& ~~~writingFlag) ||| (dirtyFlag ||| schedFlag)) &&& writingFlag = 0#32 := by bits
theorem h_nw (v : BitVec 32)  : ((v &&& ~~~writingFlag) ||| (dirtyFlag ||| schedFlag)) &&& schedFlag = schedFlag := by bits

theorem s_hi (v : BitVec 32) : getStatus v = (v >>> 18) &&& 7#32 := by bits
theorem u_hi (v : BitVec 32) : getUsage v = (v >>> 18) >>> 7 := by bits
theorem d_hi (v : BitVec 32) : v &&& dirtyFlag = ((v >>> 18) &&& 8#32) <<< 18 := by bits
theorem w_hi (v : BitVec 32) : v &&& writingFlag = ((v >>> 18) &&& 16#32) <<< 18 := by bits
theorem h_hi (v : BitVec 32) : v &&& schedFlag = ((v >>> 18) &&& 32#32) <<< 18 := by bits

theorem locks_toNat (v : BitVec 32) : (getLocks v).toNat = v.toNat % 2 ^ 18 := by
  have h : getLocks v = v &&& 0x0003FFFF#32 := by bits
  rw [h, BitVec.toNat_and]
  exact Nat.and_two_pow_sub_one_eq_mod v.toNat 18

theorem hi_toNat (v : BitVec 32) : (v >>> 18).toNat = v.toNat / 2 ^ 18 := by
  rw [BitVec.toNat_ushiftRight, Nat.shiftRight_eq_div_pow]

/-- Adding one lock changes the number of locks only. -/
theorem add_one (v : BitVec 32) (h : (getLocks v).toNat + 1 < 2 ^ 18) :
    (v + 1#32) >>> 18 = v >>> 18 ∧ (getLocks (v + 1#32)).toNat = (getLocks v).toNat + 1 := by
  have hv := v.isLt
  rw [locks_toNat] at h
  have h1 : (v + 1#32).toNat = v.toNat + 1 := by
    rw [BitVec.toNat_add]
    have : (1#32).toNat = 1 := rfl
    rw [this]
    omega
  refine ⟨?_, ?_⟩
  · apply BitVec.eq_of_toNat_eq
    rw [hi_toNat, hi_toNat, h1]
    omega
  · rw [locks_toNat, locks_toNat, h1]
    omega

/-- Taking away one lock changes the number of locks only. -/
theorem sub_one (v : BitVec 32) (h : 0 < (getLocks v).toNat) :
    (v - 1#32) >>> 18 = v >>> 18 ∧ (getLocks (v - 1#32)).toNat = (getLocks v).toNat - 1 := by
  have hv := v.isLt
  rw [locks_toNat] at h
  have h1 : (v - 1#32).toNat = v.toNat - 1 := by
    rw [BitVec.toNat_sub]
    have : (1#32).toNat = 1 := rfl
    rw [this]
    omega
  refine ⟨?_, ?_⟩
  · apply BitVec.eq_of_toNat_eq
    rw [hi_toNat, hi_toNat, h1]
    omega
  · rw [locks_toNat, locks_toNat, h1]
    omega

theorem same_hi {v w : BitVec 32} (h : w >>> 18 = v >>> 18) : getStatus w = getStatus v ∧ getUsage w = getUsage v ∧
    w &&& dirtyFlag = v &&& dirtyFlag ∧ w &&& writingFlag = v &&& writingFlag ∧ w &&& schedFlag = v &&& schedFlag := by
  rw [s_hi w, s_hi v, u_hi w, u_hi v, d_hi w, d_hi v, w_hi w, w_hi v, h_hi w, h_hi v, h]
  exact ⟨rfl, rfl, rfl, rfl, rfl⟩

theorem usage_lt (v : BitVec 32) : (getUsage v).toNat < 128 := by
  rw [u_hi, BitVec.toNat_ushiftRight, hi_toNat, Nat.shiftRight_eq_div_pow]
  have := v.isLt
  omega

theorem and127 (u : BitVec 32) : (u &&& 127#32).toNat = u.toNat % 128 := by
  rw [BitVec.toNat_and]
  exact Nat.and_two_pow_sub_one_eq_mod u.toNat 7

/-- The word and the fields change in the same way. -/
theorem decode_word (v : BitVec 32) (c : Chg)
    (hl : c = .lock → (getLocks v).toNat + 1 < 2 ^ 18) (hu : ∀ d, c = .unlock d → 0 < (getLocks v).toNat) :
    decode (word v c) = (decode v).change c := by
  cases c with
  | lock =>
    have ⟨h1, h2⟩ := add_one v (hl rfl)
    have ⟨a1, a2, a3, a4, a5⟩ := same_hi h1
    have hlt := usage_lt v
    simp only [word, decode, Part.change, l_su, s_su, d_su, w_su, h_su, u_su, a1, a3, a4, a5, h2, Part.mk.injEq, true_and]
    rw [and127]
    split
    · rename_i hu7
      rw [BitVec.toNat_add]
      have : (1#32).toNat = 1 := rfl
      rw [this]
      omega
    · rename_i hu7
      omega
  | unlock d =>
    have ⟨h1, h2⟩ := sub_one v (hu d rfl)
    have ⟨a1, a2, a3, a4, a5⟩ := same_hi h1
    cases d with
    | false =>
      simp only [word, decode, Part.change, a1, a2, a3, a4, a5, h2, Bool.false_eq_true, if_false, Bool.or_false]
    | true =>
      simp only [word, decode, Part.change, if_true, l_od, s_od, u_od, d_od, w_od, h_od, a1, a2, a4, a5, h2, Bool.or_true]
      rfl
  | loading => simp only [word, decode, Part.change, l_ss1, s_ss1, u_ss1, d_ss1, w_ss1, h_ss1]; rfl
  | loaded =>
    simp only [word, decode, Part.change, l_su, s_su, d_su, w_su, h_su, u_su, l_ss2, s_ss2, d_ss2, w_ss2, h_ss2]; rfl
  | sched => simp only [word, decode, Part.change, l_os, s_os, u_os, d_os, w_os, h_os]; rfl
  | writing => simp only [word, decode, Part.change, l_wg, s_wg, u_wg, d_wg, w_wg, h_wg]; rfl
  | written => simp only [word, decode, Part.change, l_wn, s_wn, u_wn, d_wn, w_wn, h_wn]; rfl
  | notWritten => simp only [word, decode, Part.change, l_nw, s_nw, u_nw, d_nw, w_nw, h_nw]; rfl
  | evict => simp only [word, decode, Part.change, l_ss3, s_ss3, u_ss3, d_ss3, w_ss3, h_ss3]; rfl
  | age =>
    have hlt := usage_lt v
    simp only [word, decode, Part.change, l_su, s_su, d_su, w_su, h_su, u_su, Part.mk.injEq, true_and]
    rw [and127, BitVec.toNat_ushiftRight, Nat.shiftRight_eq_div_pow]
    omega
  | gone => simp only [word, decode, Part.change, l_ss0, s_ss0, u_ss0, d_ss0, w_ss0, h_ss0]; rfl

/-- Only the four statuses occur. -/
theorem valid_word (v : BitVec 32) (c : Chg) (h : valid v)
    (hl : c = .lock → (getLocks v).toNat + 1 < 2 ^ 18) (hu : ∀ d, c = .unlock d → 0 < (getLocks v).toNat) :
    valid (word v c) := by
  unfold valid at *
  cases c with
  | lock =>
    have ⟨h1, _⟩ := add_one v (hl rfl)
    have ⟨a1, _⟩ := same_hi h1
    rw [word, s_su, a1]; exact h
  | unlock d =>
    have ⟨h1, _⟩ := sub_one v (hu d rfl)
    have ⟨a1, _⟩ := same_hi h1
    cases d with
    | false => rw [word, if_neg (by decide), a1]; exact h
    | true => rw [word, if_pos rfl, s_od, a1]; exact h
  | loading => rw [word, s_ss1]; decide
  | loaded => rw [word, s_su, s_ss2]; decide
  | sched => rw [word, s_os]; exact h
  | writing => rw [word, s_wg]; exact h
  | written => rw [word, s_wn]; exact h
  | notWritten => rw [word, s_nw]; exact h
  | evict => rw [word, s_ss3]; decide
  | age => rw [word, s_su]; exact h
  | gone => rw [word, s_ss0]; decide

end Verif.S3Parts
