import Verif.Tuple.Lemmas

/-!
# Writing and reading one column
-/

namespace Verif.Tuple

/-! ## Writing -/

theorem put_zeros (pre : List Nat) (p k : Nat) (bytes : List Nat) (h : p + bytes.length ≤ k) :
    W.put ⟨pre.length + p, pre ++ List.replicate k 0⟩ bytes =
      .ok ⟨pre.length + (p + bytes.length),
        pre ++ (List.replicate p 0 ++ bytes) ++ List.replicate (k - (p + bytes.length)) 0⟩ := by
  have h1 : ¬ pre.length + p + bytes.length > (pre ++ List.replicate k 0).length := by
    simp; omega
  have h2 : (pre ++ List.replicate k 0).take (pre.length + p) = pre ++ List.replicate p 0 := by
    simp [List.take_append, Nat.min_eq_left (by omega : p ≤ k)]
    exact List.take_of_length_le (by omega)
  have h3 : (pre ++ List.replicate k 0).drop (pre.length + p + bytes.length) =
      List.replicate (k - (p + bytes.length)) 0 := by
    rw [List.drop_append]
    have : pre.drop (pre.length + p + bytes.length) = [] := List.drop_of_length_le (by omega)
    rw [this]
    simp
    omega
  simp only [W.put, W.write, if_neg h1, R.bind, h2, h3]
  simp [Nat.add_assoc, List.append_assoc]

/-- Writing an aligned or unaligned value behind what is already there. -/
theorem put_enc (a : Attr) (ha : AttrOK a) (al : Bool) (bytes pre : List Nat) (k : Nat)
    (h : padLen a al pre.length + bytes.length ≤ k) :
    W.put (if al then W.align ⟨pre.length, pre ++ List.replicate k 0⟩ a.align
      else ⟨pre.length, pre ++ List.replicate k 0⟩) bytes =
      .ok ⟨pre.length + (padLen a al pre.length + bytes.length),
        pre ++ (List.replicate (padLen a al pre.length) 0 ++ bytes) ++
          List.replicate (k - (padLen a al pre.length + bytes.length)) 0⟩ := by
  cases al with
  | true =>
    have := padLen_align a ha pre.length
    simp only [if_true, W.align]
    rw [← this]
    exact put_zeros pre _ k bytes h
  | false =>
    have h0 : padLen a false pre.length = 0 := rfl
    rw [h0] at h ⊢
    exact put_zeros pre 0 k bytes h

theorem putVal_enc (a : Attr) (ha : AttrOK a) (d : Datum) (hd : DatumOK a d) (w : W) (r : R W)
    (h : W.put (if (enc a d).1 then w.align a.align else w) (enc a d).2 = r) :
    putVal a d w = r := by
  subst h
  cases d with
  | num n =>
    simp only [DatumOK] at hd
    have hb := ha.byval hd
    simp [putVal, hd, hb, enc]
  | expanded flat =>
    simp only [DatumOK] at hd
    simp [putVal, hd.1, hd.2.1, enc]
  | ptr b =>
    simp only [DatumOK] at hd
    obtain ⟨hbv, hby, hval, h1⟩ := hd
    rcases ha.len with hl | hl | hl
    · have h2 : a.len ≠ -1 := by omega
      have h2' : a.len ≠ -2 := by omega
      have h3 : ¬ b.length < a.len.toNat := by
        unfold valAt at hval
        rw [if_pos hl] at hval
        split at hval
        · omega
        · simp at hval
      simp [putVal, hbv, h2, h2', enc, hl, copy, h3, R.bind]
    · have h2 : ¬ a.len > 0 := by omega
      have h3 : (textAt b).isSome := by
        unfold valAt at hval
        rw [if_neg h2, if_pos hl, if_neg (h1 (by omega))] at hval
        simpa using hval
      obtain ⟨p, hp⟩ := Option.isSome_iff_exists.1 h3
      obtain ⟨x, t, rfl, hx, hcs⟩ := textAt_cases b p hp
      rcases hcs with ⟨hodd, hx1, hx2, -⟩ | ⟨heven, h4, h5, h6, -⟩
      · have h7 : ¬ (x :: t).length < x / 2 := by omega
        simp [-List.length_cons, -List.length_take, putVal, hbv, hl, hx, hodd, copy, h7, R.bind, enc]
      · have hne : ¬ x % 2 = 1 := by omega
        have hlt : ¬ (x :: t).length < 4 := by omega
        cases hpk : (a.packable && canShort (x :: t)) with
        | true =>
          have h7 : ¬ ((x :: t).drop 4).length < size4 (x :: t) - 4 := by
            rw [List.length_drop]; omega
          simp [-List.length_cons, -List.length_take, -List.drop_succ_cons, -List.length_drop,
            -List.drop_one, putVal, hbv, hl, hx, hne, copy, hlt, h7, R.bind, enc, hpk]
        | false =>
          have h7 : ¬ (x :: t).length < size4 (x :: t) := by omega
          simp [-List.length_cons, -List.length_take, putVal, hbv, hl, hx, hne, copy, hlt, h7, R.bind,
            enc, hpk]
    · have h2 : ¬ a.len > 0 := by omega
      have h3 : (stringAt b).isSome := by
        unfold valAt at hval
        rw [if_neg h2, if_neg (by omega)] at hval
        simpa using hval
      obtain ⟨s, hs⟩ := Option.isSome_iff_exists.1 h3
      have := strLen_stringAt b s hs
      have h7 : ¬ b.length < s.length + 1 := by omega
      simp [putVal, hbv, hl, this.1, R.bind, R.get, copy, h7, enc]

theorem fillCol_enc (hasnull : Bool) (a : Attr) (ha : AttrOK a) (c : Col) (hc : ColOK a c)
    (hn : c.null = true → hasnull = true) (pre : List Nat) (k : Nat) (bits : Bits)
    (h : (encCol a c pre.length).length ≤ k) :
    fillCol hasnull a c ⟨pre.length, pre ++ List.replicate k 0⟩ bits =
      .ok (⟨pre.length + (encCol a c pre.length).length,
        pre ++ encCol a c pre.length ++ List.replicate (k - (encCol a c pre.length).length) 0⟩,
        if hasnull then bits.step c.null else bits) := by
  unfold ColOK at hc
  cases ht : c.toast with
  | some t =>
    rw [ht] at hc
    have he : encCol a c pre.length = t.bytes := by simp [encCol, ht, hc.1]
    rw [he] at h ⊢
    have h2 := put_zeros pre 0 k t.bytes (by omega)
    simp only [W.put] at h2
    cases hw : W.write ⟨pre.length, pre ++ List.replicate k 0⟩ t.bytes with
    | error => rw [Nat.add_zero, hw] at h2; simp [R.bind] at h2
    | undef => rw [Nat.add_zero, hw] at h2; simp [R.bind] at h2
    | ok w =>
      rw [Nat.add_zero, hw] at h2
      simp only [R.bind, R.ok.injEq] at h2
      have h3 : w.pos + t.bytes.length = pre.length + t.bytes.length := by
        have := congrArg W.pos h2
        simpa using this
      have h4 := congrArg W.buf h2
      simp at h4
      simp [fillCol, ht, hw, R.bind, hc.1]
      rw [← toast_length t, h3]
      exact ⟨rfl, h4⟩
  | none =>
    rw [ht] at hc
    cases hnl : c.null with
    | true =>
      have := hn hnl
      subst this
      simp [fillCol, ht, R.bind, hnl, encCol]
    | false =>
      rw [hnl] at hc
      have hc : DatumOK a c.val := by simpa using hc
      have he : encCol a c pre.length =
          List.replicate (padLen a (enc a c.val).1 pre.length) 0 ++ (enc a c.val).2 := by
        simp [encCol, ht, hnl]
      rw [he] at h ⊢
      have hl : (List.replicate (padLen a (enc a c.val).1 pre.length) 0 ++ (enc a c.val).2).length =
          padLen a (enc a c.val).1 pre.length + (enc a c.val).2.length := by simp
      rw [hl] at h ⊢
      have h2 := putVal_enc a ha c.val hc _ _ (put_enc a ha (enc a c.val).1 (enc a c.val).2 pre k h)
      simp only [fillCol, ht, R.bind, hnl, Bool.and_false, Bool.false_eq_true, if_false, h2]

/-! ## Reading -/

/-- Whether a column that is not null is aligned, and its bytes. -/
def body (a : Attr) (c : Col) : Bool × List Nat :=
  match c.toast with
  | some t => (false, t.bytes)
  | none => enc a c.val

theorem encCol_body (a : Attr) (c : Col) (off : Nat) (h : c.null = false) :
    encCol a c off = List.replicate (padLen a (body a c).1 off) 0 ++ (body a c).2 := by
  unfold encCol body
  cases c.toast with
  | some t => simp [h, padLen]
  | none => simp [h]

theorem size4_append (m tail : List Nat) (h : 4 ≤ m.length) : size4 (m ++ tail) = size4 m := by
  simp [size4, List.take_append_of_le_length h]

theorem size4_take (m : List Nat) (n : Nat) (h : 4 ≤ n) : size4 (m.take n) = size4 m := by
  simp [size4, List.take_take, Nat.min_eq_left h]

/-- How the bytes of a variable-length value look. -/
theorem enc_varlena (a : Attr) (ha : AttrOK a) (d : Datum) (hd : DatumOK a d) (hl : a.len = -1) :
    ∃ x t p, (enc a d).2 = x :: t ∧ x ≠ 1 ∧ datumVal a d = some (.text (Prod.fst p) p.2) ∧
      ((x % 2 = 1 ∧ (enc a d).2.length = x / 2 ∧ p = (false, t)) ∨
       (x % 2 = 0 ∧ (enc a d).1 = true ∧ 4 ≤ (enc a d).2.length ∧
        size4 (enc a d).2 = (enc a d).2.length ∧ p = (x % 4 == 2, (enc a d).2.drop 4))) := by
  have h2 : ¬ a.len > 0 := by omega
  cases d with
  | num n =>
    simp only [DatumOK] at hd
    have := ha.byval hd
    omega
  | expanded flat =>
    simp only [DatumOK] at hd
    obtain ⟨hbv, -, hby, htx, hev, hlen⟩ := hd
    obtain ⟨p, hp⟩ := Option.isSome_iff_exists.1 htx
    obtain ⟨x, t, rfl, hx, hcs⟩ := textAt_cases flat p hp
    simp only [List.headD_cons] at hev
    rcases hcs with ⟨hodd, -⟩ | ⟨heven, h4, h5, h6, h7⟩
    · omega
    · refine ⟨x, t, p, rfl, hx, ?_, Or.inr ⟨heven, rfl, h4, hlen.symm, ?_⟩⟩
      · simp [datumVal, hbv, valAt, hl, hx, hp]
      · rw [h7]
        have : size4 (x :: t) = (x :: t).length := hlen.symm
        rw [this]
        refine congrArg (Prod.mk _) ?_
        exact List.take_of_length_le (by rw [List.length_drop]; exact Nat.le_refl _)
  | ptr b =>
    simp only [DatumOK] at hd
    obtain ⟨hbv, hby, hval, h1⟩ := hd
    have h3 : (textAt b).isSome := by
      unfold valAt at hval
      rw [if_neg h2, if_pos hl, if_neg (h1 (by omega))] at hval
      simpa using hval
    obtain ⟨p, hp⟩ := Option.isSome_iff_exists.1 h3
    obtain ⟨x, t, rfl, hx, hcs⟩ := textAt_cases b p hp
    have hdv : datumVal a (.ptr (x :: t)) = some (.text p.1 p.2) := by
      simp [datumVal, hbv, valAt, hl, hx, hp]
    rcases hcs with ⟨hodd, hx1, hx2, hp'⟩ | ⟨heven, h4, h5, h6, hp'⟩
    · obtain ⟨y, hy⟩ : ∃ y, x / 2 = y + 1 := ⟨x / 2 - 1, by omega⟩
      have he : (enc a (.ptr (x :: t))).2 = x :: t.take y := by
        simp [enc, hl, hodd, hy]
      refine ⟨x, t.take y, p, he, hx, hdv, Or.inl ⟨hodd, ?_, ?_⟩⟩
      · rw [he]
        simp only [List.length_cons, List.length_take] at hx2 ⊢
        omega
      · rw [hp', hy]; rfl
    · have hne : ¬ x % 2 = 1 := by omega
      cases hpk : (a.packable && canShort (x :: t)) with
      | true =>
        have he : (enc a (.ptr (x :: t))).2 =
            (2 * (size4 (x :: t) - 4 + 1) + 1) % 256 :: ((x :: t).drop 4).take (size4 (x :: t) - 4) := by
          simp [-List.drop_succ_cons, enc, hl, hne, hpk]
        have hcs : size4 (x :: t) - 4 + 1 ≤ 127 ∧ x % 4 = 0 := by
          simp [canShort] at hpk
          exact ⟨by omega, hpk.2.1.1.2⟩
        refine ⟨_, _, p, he, by omega, hdv, Or.inl ⟨by omega, ?_, ?_⟩⟩
        · rw [he]
          simp only [List.length_cons, List.length_take, List.length_drop]
          simp only [List.length_cons] at h6
          omega
        · rw [hp', hcs.2]; rfl
      | false =>
        have he : enc a (.ptr (x :: t)) = (true, (x :: t).take (size4 (x :: t))) := by
          simp [enc, hl, hne, hpk]
        have hl' : ((x :: t).take (size4 (x :: t))).length = size4 (x :: t) := by
          rw [List.length_take]; omega
        obtain ⟨y, hy⟩ : ∃ y, size4 (x :: t) = y + 1 := ⟨size4 (x :: t) - 1, by omega⟩
        refine ⟨x, t.take y, p, ?_, hx, hdv, Or.inr ⟨heven, ?_, ?_, ?_, ?_⟩⟩
        · rw [he]; simp only [hy]; rfl
        · rw [he]
        · rw [he]; simp only [hl']; omega
        · rw [he]; simp only [hl']; rw [size4_take _ _ (by omega)]
        · rw [he, hp']
          refine congrArg (Prod.mk _) ?_
          rw [List.drop_take]

/-- The length found when reading is the length written. -/
theorem fieldLength_body (a : Attr) (ha : AttrOK a) (c : Col) (hc : ColOK a c) (hn : c.null = false)
    (tail : List Nat) : fieldLength a ((body a c).2 ++ tail) = .ok (body a c).2.length := by
  unfold ColOK at hc
  cases ht : c.toast with
  | some t =>
    rw [ht] at hc
    have hb : (body a c).2 = t.bytes := by simp [body, ht]
    rw [hb, toast_length]
    have h0 : (t.bytes ++ tail)[0]? = some 1 := by simp [Toast.bytes]
    have hneg : a.len < 0 := by have := hc.2.1; omega
    unfold fieldLength
    rw [h0]
    simp [hc.2.2.1, hneg, R.get, R.bind]
  | none =>
    rw [ht, hn] at hc
    have hc : DatumOK a c.val := by simpa using hc
    have hb : body a c = enc a c.val := by simp [body, ht]
    rw [hb]
    rcases ha.len with hl | hl | hl
    · have hneg : ¬ a.len < 0 := by omega
      have hlen : (enc a c.val).2.length = a.len.toNat := by
        cases hv : c.val with
        | num n => simp [enc, le_length]
        | expanded flat => rw [hv] at hc; have := hc.2.1; omega
        | ptr b =>
          rw [hv] at hc
          simp only [DatumOK] at hc
          have h3 : a.len.toNat ≤ b.length := by
            have hval := hc.2.2.1
            unfold valAt at hval
            rw [if_pos hl] at hval
            split at hval
            · assumption
            · simp at hval
          simp [enc, hl, h3]
      simp [fieldLength, hneg, addLength, hl, hlen]
    · obtain ⟨x, t, p, he, hx, -, hcs⟩ := enc_varlena a ha c.val hc hl
      have hbv : a.byval = false := by
        cases hv : a.byval with
        | false => rfl
        | true => have := ha.byval hv; omega
      rw [he] at hcs ⊢
      have h4 : varSize (x :: t ++ tail) = some (x :: t).length := by
        simp only [List.cons_append, varSize, if_neg hx]
        rcases hcs with ⟨h5, h6, -⟩ | ⟨h5, -, h6, h7, -⟩
        · rw [if_pos h5, h6]
        · have h8 : ¬ (x :: (t ++ tail)).length < 4 := by
            simp only [List.length_cons, List.length_append] at h6 ⊢
            omega
          rw [if_neg (by omega), if_neg h8]
          have := size4_append (x :: t) tail h6
          rw [List.cons_append] at this
          rw [this, h7]
      unfold fieldLength
      simp only [hbv, Bool.not_false, Bool.true_and]
      rw [if_pos (by simp; omega)]
      have h0 : (x :: t ++ tail)[0]? = some x := rfl
      rw [h0]
      simp only [R.get, R.bind, if_neg hx]
      unfold addLength
      rw [if_neg (by omega)]
      simp only [if_pos hl, h4, R.get]
    · have hbv : a.byval = false := by
        cases hv : a.byval with
        | false => rfl
        | true => have := ha.byval hv; omega
      cases hv : c.val with
      | num n => rw [hv] at hc; simp only [DatumOK] at hc; rw [hbv] at hc; cases hc
      | expanded flat => rw [hv] at hc; have := hc.2.1; omega
      | ptr b =>
        rw [hv] at hc
        simp only [DatumOK] at hc
        obtain ⟨-, hby, hval, h1⟩ := hc
        have h3 : (stringAt b).isSome := by
          unfold valAt at hval
          rw [if_neg (by omega), if_neg (by omega)] at hval
          simpa using hval
        obtain ⟨s, hs⟩ := Option.isSome_iff_exists.1 h3
        have hss := strLen_stringAt b s hs
        have he : (enc a (.ptr b)).2 = s ++ [0] := by
          simp [enc, hl, hss.1, hss.2.1]
        rw [he]
        have h6 : stringAt (s ++ [0] ++ tail) = some s := stringAt_append s tail b hs
        have h7 := (strLen_stringAt _ s h6).1
        have hh : (s ++ [0] ++ tail).head? ≠ some 1 := by
          have h8 := h1 (by omega)
          have h9 := hss.2.1
          cases s with
          | nil => simp
          | cons y s =>
            cases b with
            | nil => simp at h9
            | cons z b =>
              simp at h9
              simp at h8 ⊢
              omega
        generalize hm : s ++ [0] ++ tail = m at *
        cases m with
        | nil => simp at hm
        | cons y m =>
          simp at hh
          unfold fieldLength
          simp only [hbv, Bool.not_false, Bool.true_and]
          rw [if_pos (by simp; omega)]
          have h0 : (y :: m)[0]? = some y := rfl
          rw [h0]
          simp only [R.get, R.bind, if_neg hh]
          unfold addLength
          rw [if_neg (by omega)]
          simp only [h7, hl, Option.map_some, R.get]
          simp

/-- A value that is not aligned does not begin with a zero. -/
theorem body_head (a : Attr) (ha : AttrOK a) (c : Col) (hc : ColOK a c) (hn : c.null = false)
    (hl : a.len = -1) : ∃ x t, (body a c).2 = x :: t ∧ ((body a c).1 = false → x ≠ 0) := by
  unfold ColOK at hc
  cases ht : c.toast with
  | some t => exact ⟨1, _, by simp [body, ht, Toast.bytes]; rfl, by simp⟩
  | none =>
    rw [ht, hn] at hc
    have hc : DatumOK a c.val := by simpa using hc
    have hb : body a c = enc a c.val := by simp [body, ht]
    rw [hb]
    obtain ⟨x, t, p, he, hx, -, hcs⟩ := enc_varlena a ha c.val hc hl
    refine ⟨x, t, he, ?_⟩
    intro hf
    rcases hcs with ⟨h5, -⟩ | ⟨-, h6, -⟩
    · omega
    · rw [hf] at h6; cases h6

/-- Other values are aligned, or need no alignment. -/
theorem body_fixed (a : Attr) (ha : AttrOK a) (c : Col) (hc : ColOK a c) (hn : c.null = false)
    (hl : a.len ≠ -1) (off : Nat) : off + padLen a (body a c).1 off = alignUp off a.align := by
  unfold ColOK at hc
  cases ht : c.toast with
  | some t => rw [ht] at hc; exact absurd hc.2.1 hl
  | none =>
    rw [ht, hn] at hc
    have hc : DatumOK a c.val := by simpa using hc
    have hb : body a c = enc a c.val := by simp [body, ht]
    rw [hb]
    rcases ha.len with h1 | h1 | h1
    · have : (enc a c.val).1 = true := by
        cases hv : c.val with
        | num n => rfl
        | expanded flat => rfl
        | ptr b => simp [enc, h1]
      rw [this]
      exact padLen_align a ha off
    · exact absurd h1 hl
    · rw [ha.string h1, alignUp_one]
      unfold padLen
      rw [ha.string h1, alignUp_one]
      split <;> omega

theorem fromLe_lt (l : List Nat) (h : ∀ x ∈ l, x < 256) : fromLe l < 256 ^ l.length := by
  induction l with
  | nil => simp [fromLe]
  | cons x t ih =>
    have h1 := h x (by simp)
    have h2 := ih (fun y hy => h y (by simp [hy]))
    simp only [fromLe, List.length_cons, Nat.pow_succ]
    omega

theorem toastAt_bytes (t : Toast) (tail : List Nat) (h1 : t.compression < 256)
    (h2 : t.rawSize < 256 ^ 4) (h3 : t.size < 256 ^ 4) : toastAt (t.bytes ++ tail) = some t := by
  have e1 := fromLe_le 4 t.rawSize
  have e2 := fromLe_le 4 t.size
  rw [Nat.mod_eq_of_lt h2] at e1
  rw [Nat.mod_eq_of_lt h3] at e2
  have e3 : ((le 4 t.rawSize ++ (le 4 t.size ++ tail))).take 4 = le 4 t.rawSize :=
    List.take_left' (le_length 4 _)
  have e4 : ((le 4 t.rawSize ++ (le 4 t.size ++ tail))).drop 4 = le 4 t.size ++ tail :=
    List.drop_left' (le_length 4 _)
  have e5 : (le 4 t.size ++ tail).take 4 = le 4 t.size := List.take_left' (le_length 4 _)
  have e6 : 8 ≤ (le 4 t.rawSize ++ (le 4 t.size ++ tail)).length := by
    simp [le_length]; omega
  have e7 : t.bytes ++ tail =
      1 :: t.compression % 256 :: 0 :: 0 :: (le 4 t.rawSize ++ (le 4 t.size ++ tail)) := by
    simp [Toast.bytes]
  rw [e7]
  simp only [toastAt]
  rw [if_pos e6, e3, e4, e5, e1, e2, Nat.mod_eq_of_lt h1]

/-- What is fetched is the value that was stored. -/
theorem fetch_body (a : Attr) (ha : AttrOK a) (c : Col) (hc : ColOK a c) (hn : c.null = false)
    (tail : List Nat) :
    ∃ r, fetch a ((body a c).2 ++ tail) = .ok r ∧ readVal a (some r) = colVal a c ∧
      (colVal a c).isSome = true := by
  unfold ColOK at hc
  cases ht : c.toast with
  | some t =>
    rw [ht] at hc
    obtain ⟨-, hl, hbv, h1, h2, h3⟩ := hc
    have hb : (body a c).2 = t.bytes := by simp [body, ht]
    have hh : (t.bytes ++ tail).head? = some 1 := by simp [Toast.bytes]
    rw [hb]
    refine ⟨.ptr (t.bytes ++ tail), by simp [fetch, hbv], ?_, by simp [colVal, hn, ht]⟩
    simp only [readVal, hbv, colVal, hn, ht, valAt]
    rw [if_neg (by simp), if_neg (by omega), if_pos hl, if_pos hh, toastAt_bytes t tail h1 h2 h3]
    simp
  | none =>
    rw [ht, hn] at hc
    have hc : DatumOK a c.val := by simpa using hc
    have hb : body a c = enc a c.val := by simp [body, ht]
    have hcv : colVal a c = datumVal a c.val := by simp [colVal, hn, ht]
    rw [hb, hcv]
    cases hbv : a.byval with
    | true =>
      have h1 := ha.byval hbv
      cases hv : c.val with
      | expanded flat => rw [hv] at hc; rw [hc.1] at hbv; cases hbv
      | ptr b => rw [hv] at hc; rw [hc.1] at hbv; cases hbv
      | num n =>
        refine ⟨.num (n % 256 ^ a.len.toNat), ?_, by simp [readVal, datumVal, hbv], by simp [datumVal, hbv]⟩
        have he : (enc a (.num n)).2 = le a.len.toNat n := rfl
        have hlen : ¬ (le a.len.toNat n ++ tail).length < a.len.toNat := by
          rw [List.length_append, le_length]; omega
        rw [he]
        simp only [fetch, hbv, if_true, if_pos h1, copy]
        rw [if_neg hlen]
        have : (le a.len.toNat n ++ tail).take a.len.toNat = le a.len.toNat n :=
          List.take_left' (le_length _ _)
        rw [this]
        simp only [R.bind, fromLe_le]
    | false =>
      refine ⟨.ptr ((enc a c.val).2 ++ tail), by simp [fetch, hbv], ?_⟩
      simp only [readVal, hbv]
      rw [if_neg (by simp)]
      rcases ha.len with hl | hl | hl
      · cases hv : c.val with
        | num n => rw [hv] at hc; simp only [DatumOK] at hc; rw [hbv] at hc; cases hc
        | expanded flat => rw [hv] at hc; have := hc.2.1; omega
        | ptr b =>
          rw [hv] at hc
          simp only [DatumOK] at hc
          have hval := hc.2.2.1
          have h3 : a.len.toNat ≤ b.length := by
            unfold valAt at hval
            rw [if_pos hl] at hval
            split at hval
            · assumption
            · simp at hval
          have h4 : (b.take a.len.toNat ++ tail).take a.len.toNat = b.take a.len.toNat :=
            List.take_left' (by rw [List.length_take]; omega)
          have h5 : a.len.toNat ≤ (b.take a.len.toNat ++ tail).length := by
            rw [List.length_append, List.length_take]; omega
          simp only [enc, if_pos hl, datumVal, hbv, valAt, h4, if_pos h5, if_pos h3]
          simp
      · obtain ⟨x, t, p, he, hx, hdv, hcs⟩ := enc_varlena a ha c.val hc hl
        rw [hdv]
        refine ⟨?_, rfl⟩
        rw [he] at hcs ⊢
        have hh : (x :: t ++ tail).head? ≠ some 1 := by simp [hx]
        simp only [valAt]
        rw [if_neg (by omega), if_pos hl, if_neg hh]
        have hta : textAt (x :: t ++ tail) = some p := by
          simp only [List.cons_append, textAt, if_neg hx]
          rcases hcs with ⟨h5, h6, h7⟩ | ⟨h5, -, h6, h7, h8⟩
          · simp only [List.length_cons] at h6
            rw [if_pos h5, if_pos (by simp; omega), h7]
            have : x / 2 - 1 = t.length := by omega
            rw [this, List.take_left' rfl]
          · have e1 : (x :: (t ++ tail)).take 4 = (x :: t).take 4 := by
              rw [← List.cons_append, List.take_append_of_le_length h6]
            have e2 : (x :: (t ++ tail)).drop 4 = (x :: t).drop 4 ++ tail := by
              rw [← List.cons_append, List.drop_append_of_le_length h6]
            have e3 : fromLe ((x :: t).take 4) / 4 = (x :: t).length := h7
            rw [if_neg (by omega), e1, e2, e3, if_pos]
            · rw [h8]
              refine congrArg some (congrArg (Prod.mk _) ?_)
              exact List.take_left' (by rw [List.length_drop])
            · simp only [List.length_cons, List.length_append] at h6 ⊢
              omega
        rw [hta]
        rfl
      · cases hv : c.val with
        | num n => rw [hv] at hc; simp only [DatumOK] at hc; rw [hbv] at hc; cases hc
        | expanded flat => rw [hv] at hc; have := hc.2.1; omega
        | ptr b =>
          rw [hv] at hc
          simp only [DatumOK] at hc
          have hval := hc.2.2.1
          have h3 : (stringAt b).isSome := by
            unfold valAt at hval
            rw [if_neg (by omega), if_neg (by omega)] at hval
            simpa using hval
          obtain ⟨s, hs⟩ := Option.isSome_iff_exists.1 h3
          have hss := strLen_stringAt b s hs
          have he : (enc a (.ptr b)).2 = s ++ [0] := by
            simp [enc, hl, hss.1, hss.2.1]
          have h6 : stringAt (s ++ [0] ++ tail) = some s := stringAt_append s tail b hs
          rw [he]
          simp [valAt, hl, datumVal, hbv, hs, -List.append_assoc, h6]

end Verif.Tuple
