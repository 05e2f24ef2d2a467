import Verif.Tuple.Spec

/-!
# Storing and finding one value
-/

namespace Verif.Tuple

/-! ## Arithmetic -/

theorem alignUp_ge (off a : Nat) (h : a = 1 ∨ a = 2 ∨ a = 4 ∨ a = 8) : off ≤ alignUp off a := by
  unfold alignUp
  rcases h with rfl | rfl | rfl | rfl <;> omega

theorem alignUp_one (off : Nat) : alignUp off 1 = off := by
  unfold alignUp
  omega

theorem le_length (w n : Nat) : (le w n).length = w := by
  induction w generalizing n with
  | zero => rfl
  | succ w ih => simp [le, ih]

theorem fromLe_le (w n : Nat) : fromLe (le w n) = n % 256 ^ w := by
  induction w generalizing n with
  | zero => simp [le, fromLe, Nat.mod_one]
  | succ w ih =>
    simp only [le, fromLe, ih]
    rw [Nat.pow_succ, Nat.mul_comm (256 ^ w) 256, Nat.mod_mul]

theorem strLen_stringAt (b s : List Nat) (h : stringAt b = some s) :
    strLen b = some s.length ∧ b.take (s.length + 1) = s ++ [0] ∧ s.length + 1 ≤ b.length := by
  induction b generalizing s with
  | nil => simp [stringAt] at h
  | cons x t ih =>
    unfold stringAt at h
    split at h
    · rename_i hx
      subst hx
      cases h
      simp [strLen]
    · rename_i hx
      cases ht : stringAt t with
      | none => simp [ht] at h
      | some s' =>
        simp only [ht, Option.map_some, Option.some.injEq] at h
        subst h
        have := ih s' ht
        refine ⟨?_, ?_, ?_⟩
        · have h1 : strLen (x :: t) = (strLen t).map (· + 1) := by
            cases x with
            | zero => exact absurd rfl hx
            | succ x => rfl
          simp [h1, this.1]
        · simp [this.2.1]
        · simp; omega

theorem stringAt_append (s tail : List Nat) (b : List Nat) (h : stringAt b = some s) :
    stringAt (s ++ [0] ++ tail) = some s := by
  induction b generalizing s with
  | nil => simp [stringAt] at h
  | cons x t ih =>
    unfold stringAt at h
    split at h
    · cases h
      simp [stringAt]
    · rename_i hx
      cases ht : stringAt t with
      | none => simp [ht] at h
      | some s' =>
        simp only [ht, Option.map_some, Option.some.injEq] at h
        subst h
        have := ih s' ht
        simp only [List.cons_append, stringAt, if_neg hx, this, Option.map_some]

/-! ## The stored form of a value -/

/-- Whether a value is aligned, and its bytes. -/
def enc (a : Attr) : Datum → Bool × List Nat
  | .num n => (true, le a.len.toNat n)
  | .expanded flat => (true, flat)
  | .ptr b =>
    if a.len > 0 then (true, b.take a.len.toNat)
    else if a.len = -1 then
      if b.headD 0 % 2 = 1 then (false, b.take (b.headD 0 / 2))
      else if a.packable && canShort b then
        (false, (2 * (size4 b - 4 + 1) + 1) % 256 :: (b.drop 4).take (size4 b - 4))
      else (true, b.take (size4 b))
    else (false, b.take ((strLen b).getD 0 + 1))

/-- Zeros before a value stored at `off`. -/
def padLen (a : Attr) (al : Bool) (off : Nat) : Nat := if al then alignUp off a.align - off else 0

/-- The bytes of a column stored at `off`. -/
def encCol (a : Attr) (c : Col) (off : Nat) : List Nat :=
  if c.null then []
  else
    match c.toast with
    | some t => t.bytes
    | none => List.replicate (padLen a (enc a c.val).1 off) 0 ++ (enc a c.val).2

/-- The bytes of columns stored from `off` on. -/
def encRow : List Attr → List Col → Nat → List Nat
  | a :: as, c :: cs, off => encCol a c off ++ encRow as cs (off + (encCol a c off).length)
  | _, _, _ => []

theorem toast_length (t : Toast) : t.bytes.length = TOAST_SIZE := by
  simp [Toast.bytes, le_length, TOAST_SIZE]

theorem take4_ne {m : List Nat} (h : 4 ≤ m.length) : ∃ x t, m = x :: t := by
  cases m with
  | nil => simp at h
  | cons x t => exact ⟨x, t, rfl⟩

/-- What a value that shows a text looks like. -/
theorem textAt_cases (m : List Nat) (p : Bool × List Nat) (h : textAt m = some p) :
    ∃ x t, m = x :: t ∧ x ≠ 1 ∧
      ((x % 2 = 1 ∧ 1 ≤ x / 2 ∧ x / 2 ≤ m.length ∧ p = (false, t.take (x / 2 - 1))) ∨
       (x % 2 = 0 ∧ 4 ≤ m.length ∧ 4 ≤ size4 m ∧ size4 m ≤ m.length ∧
         p = (x % 4 == 2, (m.drop 4).take (size4 m - 4)))) := by
  unfold textAt at h
  cases m with
  | nil => simp at h
  | cons x t =>
    refine ⟨x, t, rfl, ?_⟩
    simp only at h
    split at h
    · cases h
    · rename_i h1
      refine ⟨h1, ?_⟩
      split at h
      · rename_i h2
        split at h
        · rename_i h3
          cases h
          exact Or.inl ⟨h2, by omega, h3, rfl⟩
        · cases h
      · rename_i h2
        split at h
        · rename_i h3
          cases h
          exact Or.inr ⟨by omega, h3.1, h3.2.1, h3.2.2, rfl⟩
        · cases h

theorem padLen_align (a : Attr) (ha : AttrOK a) (off : Nat) :
    off + padLen a true off = alignUp off a.align := by
  have := alignUp_ge off a.align ha.align
  simp only [padLen, if_true]
  omega

theorem sizeCol_enc (a : Attr) (ha : AttrOK a) (c : Col) (hc : ColOK a c) (off : Nat) :
    sizeCol a c off = .ok (off + (encCol a c off).length) := by
  unfold ColOK at hc
  cases ht : c.toast with
  | some t =>
    rw [ht] at hc
    simp [sizeCol, encCol, ht, hc.1, toast_length]
  | none =>
    rw [ht] at hc
    cases hn : c.null with
    | true => simp [sizeCol, encCol, ht, hn]
    | false =>
      rw [hn] at hc
      have hc : DatumOK a c.val := by simpa using hc
      have hpad := padLen_align a ha off
      have hlen : (encCol a c off).length = padLen a (enc a c.val).1 off + (enc a c.val).2.length := by
        simp [encCol, ht, hn]
      rw [hlen, sizeCol, ht]
      simp only [hn]
      cases hv : c.val with
      | num n =>
        rw [hv] at hc
        have hb := ha.byval hc
        have h1 : a.len > 0 := by omega
        have h2 : a.len ≠ -1 := by omega
        simp [enc, sizePlain, alignDatum, addLength, h1, h2, R.bind, le_length]
        omega
      | expanded flat =>
        rw [hv] at hc
        simp only [DatumOK] at hc
        simp [enc, hc.2.1]
        omega
      | ptr b =>
        rw [hv] at hc
        simp only [DatumOK] at hc
        obtain ⟨hbv, hby, hval, h1⟩ := hc
        rcases ha.len with hl | hl | hl
        · have h2 : a.len ≠ -1 := by omega
          have h3 : a.len.toNat ≤ b.length := by
            unfold valAt at hval
            rw [if_pos hl] at hval
            split at hval
            · assumption
            · simp at hval
          simp [enc, sizePlain, alignDatum, addLength, hl, h2, R.bind]
          omega
        · have h2 : ¬ a.len > 0 := by omega
          have h3 : (textAt b).isSome := by
            unfold valAt at hval
            rw [if_neg h2, if_pos hl, if_neg (h1 (by omega))] at hval
            simpa using hval
          obtain ⟨p, hp⟩ := Option.isSome_iff_exists.1 h3
          obtain ⟨x, t, rfl, hx, hcs⟩ := textAt_cases b p hp
          rcases hcs with ⟨hodd, hx1, hx2, -⟩ | ⟨heven, h4, h5, h6, -⟩
          · have hcs : canShort (x :: t) = false := by
              have : ¬ x % 4 = 0 := by omega
              simp [canShort, this]
            simp only [List.length_cons] at hx2
            simp [enc, sizePlain, alignDatum, addLength, hl, hodd, hx, varSize, hcs, R.bind, R.get, padLen]
            omega
          · have hne : ¬ x % 2 = 1 := by omega
            cases hpk : (a.packable && canShort (x :: t)) with
            | true =>
              have hpk' := hpk
              simp only [Bool.and_eq_true] at hpk'
              simp [enc, hl, hne, hpk'.1, hpk'.2, padLen]
              simp only [List.length_cons] at h4 h6
              omega
            | false =>
              have hlt : ¬ (x :: t).length < 4 := by omega
              simp only [List.length_cons] at h6 hlt
              simp [enc, sizePlain, alignDatum, addLength, hl, hne, hx, varSize, R.bind, R.get, hlt, hpk]
              omega
        · have h2 : ¬ a.len > 0 := by omega
          have h3 : (stringAt b).isSome := by
            unfold valAt at hval
            rw [if_neg h2, if_neg (by omega)] at hval
            simpa using hval
          obtain ⟨s, hs⟩ := Option.isSome_iff_exists.1 h3
          have := strLen_stringAt b s hs
          simp [enc, sizePlain, alignDatum, addLength, hl, this.1, R.bind, R.get, ha.string hl, alignUp_one, padLen]
          omega

end Verif.Tuple
