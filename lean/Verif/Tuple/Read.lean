import Verif.Tuple.Rows

/-!
# Reading rows back
-/

namespace Verif.Tuple

/-- The end of columns of fixed length without nulls. -/
def endOff (as : List Attr) : Nat := as.foldl (fun o a => alignUp o a.align + a.len.toNat) 0

/-- Cached offsets are right: all columns before have a fixed length, and the offset is
where the column begins if none of them is null. -/
def Coh (desc : List Attr) (c : Caches) : Prop :=
  ∀ i n a, c.getD i none = some n → desc[i]? = some a →
    (∀ b ∈ desc.take i, b.len > 0) ∧ n = alignUp (endOff (desc.take i)) a.align ∧
      (a.len = -1 → n = endOff (desc.take i))

theorem coh_empty (desc : List Attr) (n : Nat) : Coh desc (List.replicate n none) := by
  intro i m a h
  simp [List.getD_eq_getElem?_getD, List.getElem?_replicate] at h
  split at h <;> simp at h

theorem coh_set (desc : List Attr) (c : Caches) (h : Coh desc c) (i n : Nat) (a : Attr) (hi : desc[i]? = some a)
    (h1 : ∀ b ∈ desc.take i, b.len > 0) (h2 : n = alignUp (endOff (desc.take i)) a.align)
    (h3 : a.len = -1 → n = endOff (desc.take i)) : Coh desc (c.set i (some n)) := by
  intro j m b hj hb
  by_cases e : i = j
  · subst e
    rw [hi] at hb
    cases hb
    rw [List.getD_eq_getElem?_getD, List.getElem?_set] at hj
    simp only [if_true] at hj
    split at hj
    · simp at hj
      subst hj
      exact ⟨h1, h2, h3⟩
    · simp at hj
  · rw [List.getD_eq_getElem?_getD, List.getElem?_set_ne e, ← List.getD_eq_getElem?_getD] at hj
    exact h j m b hj hb

theorem endOff_snoc (as : List Attr) (a : Attr) :
    endOff (as ++ [a]) = alignUp (endOff as) a.align + a.len.toNat := by
  simp [endOff]

theorem take_succ_of (desc : List Attr) (i : Nat) (a : Attr) (h : desc[i]? = some a) :
    desc.take (i + 1) = desc.take i ++ [a] := by
  rw [List.take_add_one, h]
  rfl

/-- Bytes of a column of fixed length. -/
theorem body_len_fixed (a : Attr) (c : Col) (hc : ColOK a c) (hn : c.null = false)
    (hl : a.len > 0) : (body a c).2.length = a.len.toNat := by
  unfold ColOK at hc
  cases ht : c.toast with
  | some t => rw [ht] at hc; have := hc.2.1; omega
  | none =>
    rw [ht, hn] at hc
    have hc : DatumOK a c.val := by simpa using hc
    have hb : body a c = enc a c.val := by simp [body, ht]
    rw [hb]
    cases hv : c.val with
    | num n => simp [enc, le_length]
    | expanded flat => rw [hv] at hc; have := hc.2.1; omega
    | ptr b =>
      rw [hv] at hc
      simp only [DatumOK] at hc
      have h3 : a.len.toNat ≤ b.length := by
        have hval := hc.2.2.1
        unfold valAt at hval
        rw [if_pos hl] at hval
        split at hval
        · assumption
        · simp at hval
      simp [enc, hl, h3]

/-- Where the reader is. -/
structure At (desc : List Attr) (s : Reader) : Prop where
  fixed : s.slow = false → (∀ b ∈ desc.take s.attnum, b.len > 0) ∧ s.off = endOff (desc.take s.attnum)

theorem drop_pre (pre rest : List Nat) (n : Nat) (h : pre.length = n) : (pre ++ rest).drop n = rest :=
  List.drop_left' h

/-- Finding the next column. -/
theorem nextOffset_ok (desc : List Attr) (a : Attr) (ha : AttrOK a) (col : Col) (hc : ColOK a col)
    (hn : col.null = false) (s : Reader) (c : Caches) (pre tail : List Nat) (hi : desc[s.attnum]? = some a)
    (hat : At desc s) (hcoh : Coh desc c) (htp : s.tp = pre ++ encCol a col pre.length ++ tail)
    (hoff : s.off = pre.length) :
    ∃ slow c', nextOffset a s c = .ok (pre.length + padLen a (body a col).1 pre.length,
        { s with off := pre.length + (encCol a col pre.length).length, slow := slow, attnum := s.attnum + 1 }, c') ∧
      Coh desc c' ∧
      (slow = false → (∀ b ∈ desc.take (s.attnum + 1), b.len > 0) ∧
        pre.length + (encCol a col pre.length).length = endOff (desc.take (s.attnum + 1))) ∧
      s.tp.drop (pre.length + padLen a (body a col).1 pre.length) = (body a col).2 ++ tail := by
  have henc := encCol_body a col pre.length hn
  generalize hp : padLen a (body a col).1 pre.length = p at *
  have hlen : (encCol a col pre.length).length = p + (body a col).2.length := by
    rw [henc]; simp
  have hdrop : s.tp.drop (pre.length + p) = (body a col).2 ++ tail := by
    rw [htp, henc]
    have : pre ++ (List.replicate p 0 ++ (body a col).2) ++ tail =
        (pre ++ List.replicate p 0) ++ ((body a col).2 ++ tail) := by simp
    rw [this]
    exact drop_pre _ _ _ (by simp)
  have hfl := fieldLength_body a ha col hc hn tail
  -- the offset chosen
  have key : ∃ slow c', (if !s.slow && (c.getD s.attnum none).isSome then
        R.ok ((c.getD s.attnum none).getD 0, s.slow, c)
      else if a.len = -1 then
        if !s.slow && s.off == alignUp s.off a.align then .ok (s.off, s.slow, c.set s.attnum (some s.off))
        else
          (R.get (s.tp.drop s.off)[0]?).bind fun h =>
            .ok (if h ≠ 0 then s.off else alignUp s.off a.align, true, c)
      else
        .ok (alignUp s.off a.align, s.slow,
          if !s.slow then c.set s.attnum (some (alignUp s.off a.align)) else c)) =
        .ok (pre.length + p, slow, c') ∧ Coh desc c' ∧ (slow = false → s.slow = false) := by
    by_cases h1 : (!s.slow && (c.getD s.attnum none).isSome) = true
    · rw [if_pos h1]
      rw [Bool.and_eq_true] at h1
      have hsl : s.slow = false := by simpa using h1.1
      obtain ⟨n, hn'⟩ := Option.isSome_iff_exists.1 h1.2
      obtain ⟨h2, h3, h4⟩ := hcoh s.attnum n a hn' hi
      refine ⟨s.slow, c, ?_, hcoh, id⟩
      rw [hn']
      have ho := (hat.fixed hsl).2
      rw [hoff] at ho
      rw [← ho] at h3 h4
      have : n = pre.length + p := by
        by_cases hl : a.len = -1
        · have h5 := h4 hl
          have hp0 : p = 0 := by
            rw [← hp]
            unfold padLen
            split
            · omega
            · rfl
          omega
        · have := body_fixed a ha col hc hn hl pre.length
          omega
      simp [this]
    · rw [if_neg h1]
      by_cases hl : a.len = -1
      · rw [if_pos hl]
        by_cases h2 : (!s.slow && s.off == alignUp s.off a.align) = true
        · rw [if_pos h2]
          rw [Bool.and_eq_true] at h2
          have hsl : s.slow = false := by simpa using h2.1
          have hal : s.off = alignUp s.off a.align := by simpa using h2.2
          have ho := hat.fixed hsl
          refine ⟨s.slow, _, ?_, coh_set desc c hcoh s.attnum s.off a hi ho.1 (by rw [← ho.2]; exact hal)
            (fun _ => ho.2), id⟩
          have hp0 : p = 0 := by
            rw [hoff] at hal
            rw [← hp]
            unfold padLen
            split
            · omega
            · rfl
          rw [hp0, hoff]
          rfl
        · rw [if_neg h2]
          obtain ⟨x, t, hb, hx⟩ := body_head a ha col hc hn hl
          have hd2 : s.tp.drop s.off = List.replicate p 0 ++ ((body a col).2 ++ tail) := by
            rw [htp, hoff, henc]
            have : pre ++ (List.replicate p 0 ++ (body a col).2) ++ tail =
                pre ++ (List.replicate p 0 ++ ((body a col).2 ++ tail)) := by simp
            rw [this]
            exact drop_pre _ _ _ rfl
          refine ⟨true, c, ?_, hcoh, fun e => by cases e⟩
          rw [hd2, hb]
          cases p with
          | zero =>
            simp only [List.replicate_zero, List.nil_append, List.cons_append, List.getElem?_cons_zero, R.get,
              R.bind]
            by_cases hx0 : x = 0
            · have hal : (body a col).1 = true := by
                cases hf : (body a col).1 with
                | true => rfl
                | false => exact absurd hx0 (hx hf)
              rw [hal] at hp
              have := padLen_align a ha pre.length
              rw [hp] at this
              rw [if_neg (by simp [hx0]), hoff, ← this]
            · rw [if_pos hx0, hoff]
              rfl
          | succ p =>
            have hal : (body a col).1 = true := by
              cases hf : (body a col).1 with
              | true => rfl
              | false => rw [hf] at hp; simp [padLen] at hp
            rw [hal] at hp
            have := padLen_align a ha pre.length
            rw [hp] at this
            simp only [List.replicate_succ, List.cons_append, List.getElem?_cons_zero, R.get, R.bind]
            rw [if_neg (by simp), hoff, ← this]
      · rw [if_neg hl]
        have hf := body_fixed a ha col hc hn hl pre.length
        rw [hp] at hf
        refine ⟨s.slow, _, by rw [hoff, ← hf], ?_, id⟩
        cases hsl : s.slow with
        | true => simpa using hcoh
        | false =>
          have ho := hat.fixed hsl
          simp only [Bool.not_false, if_true]
          rw [← hoff] at hf
          refine coh_set desc c hcoh s.attnum _ a hi ho.1 ?_ (fun e => absurd e hl)
          rw [← ho.2, ← hoff, hf]
  obtain ⟨slow, c', hk, hcoh', hsl⟩ := key
  refine ⟨slow || decide (a.len ≤ 0), c', ?_, hcoh', ?_, hdrop⟩
  · unfold nextOffset
    rw [hk]
    simp only [R.bind, hdrop, hfl, hlen, Nat.add_assoc]
  · intro hf
    rw [Bool.or_eq_false_iff] at hf
    have ho := hat.fixed (hsl hf.1)
    have hpos : a.len > 0 := by
      have := of_decide_eq_false hf.2
      omega
    rw [take_succ_of desc s.attnum a hi, endOff_snoc, ← ho.2, hoff, hlen]
    refine ⟨?_, ?_⟩
    · intro b hb
      rcases List.mem_append.1 hb with hb | hb
      · exact ho.1 b hb
      · simp at hb; subst hb; exact hpos
    · have := body_fixed a ha col hc hn (by omega) pre.length
      rw [hp] at this
      rw [body_len_fixed a col hc hn hpos]
      omega

/-- A table's columns and the rows stored in it. -/
structure Ctx (desc : List Attr) (n0 : Nat) (row : List Col) : Prop where
  attrs : ∀ a ∈ desc, AttrOK a
  le : n0 ≤ desc.length
  row : RowOK (desc.take n0) row

/-- The columns a row has now. -/
def rowVals (desc : List Attr) (n0 : Nat) (row : List Col) : List (Option Val) :=
  List.zipWith colVal (desc.take n0) row ++ (desc.drop n0).map missingVal

theorem ctx_len {desc : List Attr} {n0 : Nat} {row : List Col} (h : Ctx desc n0 row) : row.length = n0 := by
  rw [h.row.1, List.length_take]
  have := h.le
  omega

theorem rowVals_length {desc : List Attr} {n0 : Nat} {row : List Col} (h : Ctx desc n0 row) :
    (rowVals desc n0 row).length = desc.length := by
  have := ctx_len h
  have := h.le
  simp [rowVals]
  omega

theorem rowVals_lt {desc : List Attr} {n0 : Nat} {row : List Col} (h : Ctx desc n0 row) (i : Nat) (a : Attr)
    (c : Col) (h1 : desc[i]? = some a) (h2 : row[i]? = some c) : (rowVals desc n0 row)[i]? = some (colVal a c) := by
  have hl := ctx_len h
  have hi : i < n0 := by rw [← hl]; exact (List.getElem?_eq_some_iff.1 h2).1
  have hle := h.le
  unfold rowVals
  rw [List.getElem?_append_left (by simp; omega), List.getElem?_zipWith, List.getElem?_take, if_pos hi, h1, h2]

theorem rowVals_ge {desc : List Attr} {n0 : Nat} {row : List Col} (h : Ctx desc n0 row) (i : Nat) (a : Attr)
    (h1 : desc[i]? = some a) (h2 : n0 ≤ i) : (rowVals desc n0 row)[i]? = some (missingVal a) := by
  have hl := ctx_len h
  have hle := h.le
  unfold rowVals
  have e : (List.zipWith colVal (desc.take n0) row).length = n0 := by simp; omega
  rw [List.getElem?_append_right (by omega), e, List.getElem?_map, List.getElem?_drop,
    show n0 + (i - n0) = i by omega, h1]
  rfl

theorem encRow_step {desc : List Attr} {n0 : Nat} {row : List Col} (h : Ctx desc n0 row) (i : Nat) (a : Attr)
    (c : Col) (h1 : desc[i]? = some a) (h2 : row[i]? = some c) (off : Nat) :
    encRow ((desc.take n0).drop i) (row.drop i) off =
      encCol a c off ++ encRow ((desc.take n0).drop (i + 1)) (row.drop (i + 1)) (off + (encCol a c off).length) := by
  have hl := ctx_len h
  have hi : i < row.length := (List.getElem?_eq_some_iff.1 h2).1
  have hle := h.le
  have e1 : (desc.take n0).drop i = a :: (desc.take n0).drop (i + 1) := by
    have h3 : i < (desc.take n0).length := by simp; omega
    rw [List.drop_eq_getElem_cons h3]
    congr 1
    have : (desc.take n0)[i]? = some a := by rw [List.getElem?_take, if_pos (by omega), h1]
    rw [List.getElem?_eq_getElem h3] at this
    exact Option.some.inj this
  have e2 : row.drop i = c :: row.drop (i + 1) := by
    rw [List.drop_eq_getElem_cons hi]
    congr 1
    rw [List.getElem?_eq_getElem hi] at h2
    exact Option.some.inj h2
  rw [e1, e2]
  rfl

theorem ctx_col {desc : List Attr} {n0 : Nat} {row : List Col} (h : Ctx desc n0 row) (i : Nat) (a : Attr)
    (c : Col) (h1 : desc[i]? = some a) (h2 : row[i]? = some c) : ColOK a c := by
  have hl := ctx_len h
  have hi : i < row.length := (List.getElem?_eq_some_iff.1 h2).1
  exact h.row.2 i a c (by rw [List.getElem?_take, if_pos (by omega), h1]) h2

/-- The state of a reader within a row. -/
structure Reading (desc : List Attr) (n0 : Nat) (row : List Col) (s : Reader) : Prop where
  natts : s.natts = n0
  nulls : ∀ (i : Nat) c, row[i]? = some c → (if s.hasnulls then isNull i s.bp else .ok false) = .ok c.null
  place : s.attnum ≤ n0 → At desc s ∧ ∃ pre tail, s.off = pre.length ∧
    s.tp = pre ++ encRow ((desc.take n0).drop s.attnum) (row.drop s.attnum) pre.length ++ tail

theorem readNext_ok {desc : List Attr} {n0 : Nat} {row : List Col} (h : Ctx desc n0 row) (s : Reader)
    (c : Caches) (hr : Reading desc n0 row s) (hcoh : Coh desc c) (a : Attr) (ha : desc[s.attnum]? = some a) :
    ∃ r s' c', readNext desc s c = .ok (r, s', c') ∧ Reading desc n0 row s' ∧ s'.attnum = s.attnum + 1 ∧
      Coh desc c' ∧ (rowVals desc n0 row)[s.attnum]? = some (readVal a r) := by
  have hl := ctx_len h
  have hmem : a ∈ desc := List.mem_of_getElem? ha
  have haok := h.attrs a hmem
  by_cases hge : s.attnum ≥ n0
  · refine ⟨a.missing.map .missing, { s with attnum := s.attnum + 1 }, c, ?_, ⟨hr.natts, hr.nulls, ?_⟩, rfl,
      hcoh, ?_⟩
    · simp only [readNext, ha, R.get, R.bind]
      rw [if_pos (by rw [hr.natts]; exact hge)]
    · intro e
      dsimp only at e
      omega
    · rw [rowVals_ge h s.attnum a ha hge]
      cases hm : a.missing with
      | none => simp [missingVal, hm, readVal]
      | some d => simp [missingVal, hm, readVal]
  · have hlt : s.attnum < row.length := by omega
    obtain ⟨col, hcol⟩ : ∃ col, row[s.attnum]? = some col := ⟨_, List.getElem?_eq_getElem hlt⟩
    have hcok := ctx_col h s.attnum a col ha hcol
    have hnl := hr.nulls s.attnum col hcol
    obtain ⟨hat, pre, tail, hoff, htp⟩ := hr.place (by omega)
    rw [encRow_step h s.attnum a col ha hcol] at htp
    have hval := rowVals_lt h s.attnum a col ha hcol
    have h0 : ¬ s.attnum ≥ s.natts := by rw [hr.natts]; exact hge
    cases hnull : col.null with
    | true =>
      refine ⟨none, { s with slow := true, attnum := s.attnum + 1 }, c, ?_, ⟨hr.natts, hr.nulls, ?_⟩, rfl,
        hcoh, ?_⟩
      · simp only [readNext, ha, R.get]
        simp only [R.bind, if_neg h0, hnl, hnull, if_true]
      · intro _
        refine ⟨⟨fun e => by cases e⟩, pre, tail, hoff, ?_⟩
        have : encCol a col pre.length = [] := by simp [encCol, hnull]
        rw [this] at htp
        simpa using htp
      · rw [hval]
        simp [colVal, hnull, readVal]
    | false =>
      obtain ⟨slow, c', hno, hcoh', hsl, hdrop⟩ := nextOffset_ok desc a haok col hcok hnull s c pre
        (encRow ((desc.take n0).drop (s.attnum + 1)) (row.drop (s.attnum + 1))
          (pre.length + (encCol a col pre.length).length) ++ tail) ha hat hcoh
        (by rw [htp]; simp) hoff
      obtain ⟨r, hf, hrv, -⟩ := fetch_body a haok col hcok hnull
        (encRow ((desc.take n0).drop (s.attnum + 1)) (row.drop (s.attnum + 1))
          (pre.length + (encCol a col pre.length).length) ++ tail)
      rw [← hdrop] at hf
      refine ⟨some r, { s with
          off := pre.length + (encCol a col pre.length).length, slow := slow, attnum := s.attnum + 1 },
        c', ?_, ⟨hr.natts, hr.nulls, ?_⟩, rfl, hcoh', ?_⟩
      · simp only [readNext, ha, R.get]
        simp only [R.bind, if_neg h0, hnl, hnull, Bool.false_eq_true, if_false, hno, hf]
      · intro _
        refine ⟨⟨hsl⟩, pre ++ encCol a col pre.length, tail, by simp, ?_⟩
        have hl2 : (pre ++ encCol a col pre.length).length = pre.length + (encCol a col pre.length).length := by
          simp
        rw [hl2]
        dsimp only
        rw [htp]
        simp
      · rw [hval, hrv]

/-- Reading columns one after the other gives the columns of the row. -/
theorem readMany_ok {desc : List Attr} {n0 : Nat} {row : List Col} (h : Ctx desc n0 row) (n : Nat) (s : Reader)
    (c : Caches) (hr : Reading desc n0 row s) (hcoh : Coh desc c) (hn : s.attnum + n ≤ desc.length) :
    ∃ rs c', readMany desc n s c = .ok (rs, c') ∧ Coh desc c' ∧ rs.length = n ∧
      ∀ i a r, desc[s.attnum + i]? = some a → rs[i]? = some r →
        (rowVals desc n0 row)[s.attnum + i]? = some (readVal a r) := by
  induction n generalizing s c with
  | zero => exact ⟨[], c, rfl, hcoh, rfl, by simp⟩
  | succ n ih =>
    obtain ⟨a, ha⟩ : ∃ a, desc[s.attnum]? = some a := ⟨_, List.getElem?_eq_getElem (by omega)⟩
    obtain ⟨r, s', c', h1, h2, h3, h4, h5⟩ := readNext_ok h s c hr hcoh a ha
    obtain ⟨rs, c'', h6, h7, h8, h9⟩ := ih s' c' h2 h4 (by omega)
    refine ⟨r :: rs, c'', ?_, h7, by simp [h8], ?_⟩
    · simp only [readMany, h1, R.bind, h6]
    · intro i a' r' hi1 hi2
      cases i with
      | zero =>
        simp at hi2
        subst hi2
        rw [Nat.add_zero] at hi1 ⊢
        rw [ha] at hi1
        cases hi1
        exact h5
      | succ i =>
        have h10 := h9 i a' r' (by rw [h3, show s.attnum + 1 + i = s.attnum + (i + 1) by omega]; exact hi1)
          (by simpa using hi2)
        rw [h3, show s.attnum + 1 + i = s.attnum + (i + 1) by omega] at h10
        exact h10

end Verif.Tuple
