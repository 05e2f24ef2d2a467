import Verif.Tuple.Read

/-!
# Whole tuples
-/

namespace Verif.Tuple

/-! ## The fixed part of a table -/

theorem specLoop_spec (as : List Attr) (i len : Nat) :
    ∃ k, k ≤ as.length ∧ (∀ b ∈ as.take k, b.len > 0) ∧
      specLoop as i len = ⟨(i + k) % 65536,
        ((as.take k).foldl (fun o a => alignUp o a.align + a.len.toNat) len) % 65536⟩ := by
  induction as generalizing i len with
  | nil => exact ⟨0, by simp, by simp, by simp [specLoop]⟩
  | cons a as ih =>
    by_cases h : a.len ≤ 0
    · exact ⟨0, by simp, by simp, by simp [specLoop, h]⟩
    · obtain ⟨k, h1, h2, h3⟩ := ih (i + 1) (alignUp len a.align + a.len.toNat)
      refine ⟨k + 1, by simp; omega, ?_, ?_⟩
      · intro b hb
        rw [List.take_succ_cons] at hb
        rcases List.mem_cons.1 hb with rfl | hb
        · omega
        · exact h2 b hb
      · rw [specLoop, if_neg h, h3, List.take_succ_cons, List.foldl_cons]
        rw [show i + 1 + k = i + (k + 1) by omega]

/-- The fixed part: its columns have a fixed length, and its size is where they end. -/
theorem fixedSpec_spec (desc : List Attr) (init : Nat) (h : desc.length < 65536) :
    (fixedSpec desc init).natts ≤ init ∧ (fixedSpec desc init).natts ≤ desc.length ∧
      (∀ b ∈ desc.take (fixedSpec desc init).natts, b.len > 0) ∧
      (fixedSpec desc init).len = endOff (desc.take (fixedSpec desc init).natts) % 65536 := by
  obtain ⟨k, h1, h2, h3⟩ := specLoop_spec (desc.take init) 0 0
  rw [List.length_take] at h1
  have hk : (0 + k) % 65536 = k := by rw [Nat.mod_eq_of_lt] <;> omega
  have hn : (fixedSpec desc init).natts = k := by rw [fixedSpec, h3]; exact hk
  have ht : (desc.take init).take k = desc.take k := by
    rw [List.take_take, Nat.min_eq_left (by omega)]
  rw [hn]
  refine ⟨by omega, by omega, by rw [← ht]; exact h2, ?_⟩
  rw [fixedSpec, h3, ht]
  rfl

theorem encRow_fixed (as : List Attr) (cs : List Col) (off : Nat) (ha : ∀ a ∈ as, AttrOK a)
    (hr : RowOK as cs) (hl : ∀ a ∈ as, a.len > 0) (hn : ∀ c ∈ cs, c.null = false) :
    off + (encRow as cs off).length = as.foldl (fun o a => alignUp o a.align + a.len.toNat) off := by
  induction as generalizing cs off with
  | nil =>
    cases cs with
    | nil => rfl
    | cons c cs => simp [RowOK] at hr
  | cons a as ih =>
    cases cs with
    | nil => simp [RowOK] at hr
    | cons c cs =>
      obtain ⟨hc, hr'⟩ := rowOK_tail a as c cs hr
      have hcn := hn c (by simp)
      have hal := hl a (by simp)
      have h1 := body_fixed a (ha a (by simp)) c hc hcn (by omega) off
      have h2 := body_len_fixed a c hc hcn hal
      have h3 : (encCol a c off).length = padLen a (body a c).1 off + (body a c).2.length := by
        rw [encCol_body a c off hcn]; simp
      have h4 := ih cs (off + (encCol a c off).length) (fun x hx => ha x (by simp [hx])) hr'
        (fun x hx => hl x (by simp [hx])) (fun x hx => hn x (by simp [hx]))
      rw [List.foldl_cons, ← h1, ← h2, Nat.add_assoc, ← h3, ← h4, encRow, List.length_append]
      omega

/-- Where the columns after a fixed part without nulls begin. -/
theorem encRow_split (as : List Attr) (cs : List Col) (i off : Nat) (ha : ∀ a ∈ as, AttrOK a)
    (hr : RowOK as cs) (hl : ∀ a ∈ as.take i, a.len > 0) (hn : ∀ c ∈ cs.take i, c.null = false) :
    ∃ P, encRow as cs off = P ++ encRow (as.drop i) (cs.drop i) (off + P.length) ∧
      off + P.length = (as.take i).foldl (fun o a => alignUp o a.align + a.len.toNat) off := by
  induction i generalizing as cs off with
  | zero => exact ⟨[], by simp, by simp⟩
  | succ i ih =>
    cases as with
    | nil =>
      cases cs with
      | nil => exact ⟨[], by simp [encRow], by simp⟩
      | cons c cs => simp [RowOK] at hr
    | cons a as =>
      cases cs with
      | nil => simp [RowOK] at hr
      | cons c cs =>
        obtain ⟨hc, hr'⟩ := rowOK_tail a as c cs hr
        have hcn := hn c (by simp)
        have hal := hl a (by simp)
        have h1 := body_fixed a (ha a (by simp)) c hc hcn (by omega) off
        have h2 := body_len_fixed a c hc hcn hal
        have h3 : (encCol a c off).length = padLen a (body a c).1 off + (body a c).2.length := by
          rw [encCol_body a c off hcn]; simp
        obtain ⟨P, h4, h5⟩ := ih as cs (off + (encCol a c off).length) (fun x hx => ha x (by simp [hx])) hr'
          (fun x hx => hl x (by simp [hx])) (fun x hx => hn x (by simp [hx]))
        refine ⟨encCol a c off ++ P, ?_, ?_⟩
        · rw [encRow, h4]
          simp [Nat.add_assoc]
        · rw [List.take_succ_cons, List.foldl_cons, ← h1, ← h2, Nat.add_assoc off, ← h3, ← h5,
            List.length_append]
          omega

/-! ## Tuples and rows -/

/-- A tuple holds a row of the first `n0` columns. -/
structure Holds (desc : List Attr) (n0 : Nat) (row : List Col) (spec : Spec) (t : Tuple) : Prop where
  fixed : t.fixed = true → spec.natts = n0 ∧ (∀ c ∈ row, c.null = false) ∧
    ∃ tail, t.body = encRow (desc.take n0) row 0 ++ tail
  plain : t.fixed = false → t.hdr.natts = n0
  nonulls : t.fixed = false → t.hdr.hasnulls = false → (∀ c ∈ row, c.null = false) ∧
    ∃ tail, t.body = encRow (desc.take n0) row 0 ++ tail
  nulls : t.fixed = false → t.hdr.hasnulls = true → ∃ tail, t.body =
    pad (bitsOf (row.map (·.null)) ⟨[], 128⟩).rev.reverse (maxAlign (bitmapLen n0)) ++
      (encRow (desc.take n0) row 0 ++ tail)

theorem pad_length (nulls : List Bool) : (pad (bitsOf nulls ⟨[], 128⟩).rev.reverse
    (maxAlign (bitmapLen nulls.length))).length = maxAlign (bitmapLen nulls.length) := by
  have hinv := bitsOf_inv nulls [] ⟨[], 128⟩ bitsInv_nil
  have h1 := hinv.len
  rw [List.nil_append] at h1
  have h2 := bitmapLen_le_max nulls.length
  simp only [pad, List.length_append, List.length_replicate, List.length_reverse, h1]
  omega

theorem form_holds {desc : List Attr} {n0 : Nat} {row : List Col} (h : Ctx desc n0 row) (spec : Spec)
    (hlt : desc.length < 65536) (version : Nat) (f hn : Bool)
    (hf : f = true → hn = false ∧ spec.natts = n0)
    (hnull : ∀ (i : Nat) c, row[i]? = some c → c.null = true → hn = true) :
    Holds desc n0 row spec (rowTuple (desc.take n0) row version f hn) := by
  have hlen : (desc.take n0).length = n0 := by rw [List.length_take]; have := h.le; omega
  have hmem : hn = false → ∀ c ∈ row, c.null = false := by
    intro e c hc
    obtain ⟨i, hi, he⟩ := List.getElem_of_mem hc
    cases hcn : c.null with
    | false => rfl
    | true =>
      have := hnull i c (by rw [← he]; exact List.getElem?_eq_getElem hi) hcn
      rw [e] at this; cases this
  cases f with
  | true =>
    have h1 := hf rfl
    refine ⟨fun _ => ⟨h1.2, hmem h1.1, [], by simp [rowTuple]⟩, ?_, ?_, ?_⟩ <;>
      (intro e; simp [rowTuple] at e)
  | false =>
    refine ⟨fun e => (by simp [rowTuple] at e), fun _ => ?_, fun _ e => ?_, fun _ e => ?_⟩
    · simp only [rowTuple, Bool.false_eq_true, if_false, hlen]
      have := h.le
      exact Nat.mod_eq_of_lt (by omega)
    · simp only [rowTuple, Bool.false_eq_true, if_false] at e
      subst e
      exact ⟨hmem rfl, [], by simp [rowTuple]⟩
    · simp only [rowTuple, Bool.false_eq_true, if_false] at e
      subst e
      exact ⟨[], by simp [rowTuple, hlen]⟩

theorem init_reading {desc : List Attr} {n0 : Nat} {row : List Col} (h : Ctx desc n0 row) {spec : Spec}
    {t : Tuple} (ht : Holds desc n0 row spec t) : Reading desc n0 row (initReader t spec) := by
  have hrl := ctx_len h
  have hget : (∀ c ∈ row, c.null = false) → ∀ (i : Nat) c, row[i]? = some c → (R.ok false) = R.ok c.null := by
    intro h1 i c hc
    rw [h1 c (List.mem_of_getElem? hc)]
  cases hf : t.fixed with
  | true =>
    obtain ⟨h1, h2, tail, h3⟩ := ht.fixed hf
    have e : initReader t spec = ⟨[], t.body, 0, 0, spec.natts, false, false⟩ := by
      simp [initReader, hf]
    rw [e]
    exact ⟨h1, by simpa using hget h2, fun _ => ⟨⟨fun _ => ⟨by simp, rfl⟩⟩, [], tail, rfl, by simp [h3]⟩⟩
  | false =>
    have h0 := ht.plain hf
    cases hn : t.hdr.hasnulls with
    | false =>
      obtain ⟨h2, tail, h3⟩ := ht.nonulls hf hn
      have e : initReader t spec = ⟨[], t.body, 0, 0, t.hdr.natts, false, false⟩ := by
        simp [initReader, hf, hn]
      rw [e]
      exact ⟨h0, by simpa using hget h2, fun _ => ⟨⟨fun _ => ⟨by simp, rfl⟩⟩, [], tail, rfl, by simp [h3]⟩⟩
    | true =>
      obtain ⟨tail, h3⟩ := ht.nulls hf hn
      have e : initReader t spec = ⟨t.body, t.body.drop (maxAlign (bitmapLen t.hdr.natts)), 0, 0, t.hdr.natts,
          true, false⟩ := by
        simp [initReader, hf, hn]
      rw [e]
      have hnl : (row.map (·.null)).length = n0 := by simp [hrl]
      have hpl := pad_length (row.map (·.null))
      rw [hnl] at hpl
      refine ⟨h0, ?_, fun _ => ⟨⟨fun _ => ⟨by simp, rfl⟩⟩, [], tail, rfl, ?_⟩⟩
      · intro i c hc
        simp only [if_true]
        rw [h3]
        have := isNull_pad (row.map (·.null)) (encRow (desc.take n0) row 0 ++ tail) i c.null (by
          rw [List.getElem?_map, hc]; rfl)
        rw [hnl] at this
        exact this
      · simp only [List.drop_zero, List.nil_append, List.length_nil]
        rw [h0, h3]
        exact List.drop_left' hpl

/-- Reading a tuple gives the columns of the row. -/
theorem readTuple_ok {desc : List Attr} {n0 : Nat} {row : List Col} (h : Ctx desc n0 row) {spec : Spec}
    {t : Tuple} (ht : Holds desc n0 row spec t) (c : Caches) (hcoh : Coh desc c) (n : Nat) (hn : n ≤ desc.length) :
    ∃ rs c', readTuple desc spec t n c = .ok (rs, c') ∧ Coh desc c' ∧ rs.length = n ∧
      ∀ (i : Nat) a r, desc[i]? = some a → rs[i]? = some r → (rowVals desc n0 row)[i]? = some (readVal a r) := by
  have ha : (initReader t spec).attnum = 0 := by
    unfold initReader
    split
    · rfl
    · split <;> rfl
  obtain ⟨rs, c', h1, h2, h3, h4⟩ := readMany_ok h n (initReader t spec) c (init_reading h ht) hcoh
    (by rw [ha]; omega)
  refine ⟨rs, c', h1, h2, h3, ?_⟩
  intro i a r h5 h6
  have := h4 i a r (by rw [ha, Nat.zero_add]; exact h5) h6
  rw [ha, Nat.zero_add] at this
  exact this

/-- A cached offset leads to the column if no column up to it is null. -/
theorem cached_ok {desc : List Attr} {n0 : Nat} {row : List Col} (h : Ctx desc n0 row) (c : Caches)
    (hcoh : Coh desc c) (i n : Nat) (a : Attr) (col : Col) (hc : c.getD i none = some n) (ha : desc[i]? = some a)
    (hcol : row[i]? = some col) (hn : ∀ j, j ≤ i → ∀ cj, row[j]? = some cj → cj.null = false) (tail : List Nat) :
    ∃ r, fetch a ((encRow (desc.take n0) row 0 ++ tail).drop n) = .ok r ∧
      (rowVals desc n0 row)[i]? = some (readVal a (some r)) := by
  obtain ⟨h1, h2, h3⟩ := hcoh i n a hc ha
  have hrl := ctx_len h
  have hi : i < n0 := by rw [← hrl]; exact (List.getElem?_eq_some_iff.1 hcol).1
  have haok := h.attrs a (List.mem_of_getElem? ha)
  have hcok := ctx_col h i a col ha hcol
  have hcn := hn i (Nat.le_refl _) col hcol
  have htk : (desc.take n0).take i = desc.take i := by rw [List.take_take, Nat.min_eq_left (by omega)]
  obtain ⟨P, h4, h5⟩ := encRow_split (desc.take n0) row i 0 (fun x hx => h.attrs x (List.mem_of_mem_take hx))
    h.row (by rw [htk]; exact h1) (by
      intro x hx
      obtain ⟨j, hj, he⟩ := List.getElem_of_mem hx
      have hj' : j < i := by rw [List.length_take] at hj; omega
      refine hn j (by omega) x ?_
      rw [← he, List.getElem_take]
      exact List.getElem?_eq_getElem _)
  rw [htk, Nat.zero_add] at h5
  have h5 : P.length = endOff (desc.take i) := h5
  rw [Nat.zero_add, encRow_step h i a col ha hcol, encCol_body a col P.length hcn] at h4
  have hpos : n = P.length + padLen a (body a col).1 P.length := by
    rw [← h5] at h2 h3
    by_cases hl : a.len = -1
    · have h6 := h3 hl
      have : padLen a (body a col).1 P.length = 0 := by
        unfold padLen
        split
        · omega
        · rfl
      omega
    · have := body_fixed a haok col hcok hcn hl P.length
      omega
  have hdrop : ∃ tail', (encRow (desc.take n0) row 0 ++ tail).drop n = (body a col).2 ++ tail' := by
    rw [h4, hpos]
    generalize encRow (List.drop (i + 1) (List.take n0 desc)) (List.drop (i + 1) row) _ = E
    refine ⟨E ++ tail, ?_⟩
    have : P ++ (List.replicate (padLen a (body a col).1 P.length) 0 ++ (body a col).2 ++ E) ++ tail =
        (P ++ List.replicate (padLen a (body a col).1 P.length) 0) ++ ((body a col).2 ++ (E ++ tail)) := by
      simp
    rw [this]
    exact List.drop_left' (by simp)
  obtain ⟨tail', hd⟩ := hdrop
  obtain ⟨r, h7, h8, -⟩ := fetch_body a haok col hcok hcn tail'
  rw [← hd] at h7
  exact ⟨r, h7, by rw [rowVals_lt h i a col ha hcol, h8]⟩

theorem nocache_slow {desc : List Attr} {n0 : Nat} {row : List Col} (h : Ctx desc n0 row) {spec : Spec}
    {t : Tuple} (ht : Holds desc n0 row spec t) (c : Caches) (hcoh : Coh desc c) (i : Nat) (a : Attr)
    (ha : desc[i]? = some a) :
    ∃ r c', ((readTuple desc spec t (i + 1) c).bind fun (rs, c) => R.ok ((rs.getLast?).getD none, c)) = .ok (r, c') ∧
      Coh desc c' ∧ (rowVals desc n0 row)[i]? = some (readVal a r) := by
  have hi : i < desc.length := (List.getElem?_eq_some_iff.1 ha).1
  obtain ⟨rs, c', h1, h2, h3, h4⟩ := readTuple_ok h ht c hcoh (i + 1) (by omega)
  obtain ⟨r, hr⟩ : ∃ r, rs[i]? = some r := ⟨_, List.getElem?_eq_getElem (by omega)⟩
  refine ⟨r, c', ?_, h2, h4 i a r ha hr⟩
  rw [h1]
  simp only [R.bind]
  rw [List.getLast?_eq_getElem?, h3, Nat.add_sub_cancel, hr]
  rfl

theorem nocache_ok {desc : List Attr} {n0 : Nat} {row : List Col} (h : Ctx desc n0 row) {spec : Spec}
    {t : Tuple} (ht : Holds desc n0 row spec t) (c : Caches) (hcoh : Coh desc c) (i : Nat) (a : Attr) (col : Col)
    (ha : desc[i]? = some a) (hcol : row[i]? = some col) (hn : col.null = false) :
    ∃ r c', nocache desc spec t i c = .ok (r, c') ∧ Coh desc c' ∧
      (rowVals desc n0 row)[i]? = some (readVal a r) := by
  have hrl := ctx_len h
  have hi : i < n0 := by rw [← hrl]; exact (List.getElem?_eq_some_iff.1 hcol).1
  -- what the test for nulls gives
  have key : ∃ slow tp, (if t.fixed then R.ok (false, t.body)
      else if t.hdr.hasnulls then
        (nullBefore t.body i).bind fun b => .ok (b, t.body.drop (maxAlign (bitmapLen t.hdr.natts)))
      else .ok (false, t.body)) = .ok (slow, tp) ∧
      (slow = false → (∀ j, j ≤ i → ∀ cj, row[j]? = some cj → cj.null = false) ∧
        ∃ tail, tp = encRow (desc.take n0) row 0 ++ tail) := by
    have hall : (∀ c ∈ row, c.null = false) → ∀ j, j ≤ i → ∀ cj, row[j]? = some cj → cj.null = false :=
      fun h1 j _ cj hj => h1 cj (List.mem_of_getElem? hj)
    cases hf : t.fixed with
    | true =>
      obtain ⟨h1, h2, h3⟩ := ht.fixed hf
      exact ⟨false, t.body, by simp, fun _ => ⟨hall h2, h3⟩⟩
    | false =>
      have h0 := ht.plain hf
      cases hnl : t.hdr.hasnulls with
      | false =>
        obtain ⟨h2, h3⟩ := ht.nonulls hf hnl
        exact ⟨false, t.body, by simp, fun _ => ⟨hall h2, h3⟩⟩
      | true =>
        obtain ⟨tail, h3⟩ := ht.nulls hf hnl
        have hml : (row.map (·.null)).length = n0 := by simp [hrl]
        obtain ⟨v, hv, hv2⟩ := nullBefore_pad (row.map (·.null)) (encRow (desc.take n0) row 0 ++ tail) i
          (by omega)
        have hpl := pad_length (row.map (·.null))
        rw [hml] at hv hpl
        rw [← h3] at hv
        refine ⟨v, _, by simp [hv, R.bind]; rfl, ?_⟩
        intro hvf
        refine ⟨?_, tail, ?_⟩
        · intro j hj cj hcj
          by_cases e : j = i
          · subst e; rw [hcol] at hcj; cases hcj; exact hn
          · have := hv2 hvf j (by omega)
            rw [List.getElem?_map, hcj] at this
            simpa using this
        · rw [h0, h3]
          exact List.drop_left' hpl
  obtain ⟨slow, tp, hk, hk2⟩ := key
  unfold nocache
  rw [ha, hk]
  simp only [R.get, R.bind]
  by_cases h1 : (!slow && (c.getD i none).isSome) = true
  · rw [if_pos h1]
    rw [Bool.and_eq_true] at h1
    obtain ⟨n, hc⟩ := Option.isSome_iff_exists.1 h1.2
    obtain ⟨hno, tail, htp⟩ := hk2 (by simpa using h1.1)
    obtain ⟨r, h2, h3⟩ := cached_ok h c hcoh i n a col hc ha hcol hno tail
    refine ⟨some r, c, ?_, hcoh, h3⟩
    rw [hc, htp]
    simp only [Option.getD_some, h2]
  · rw [if_neg h1]
    exact nocache_slow h ht c hcoh i a ha

theorem fastGet_ok {desc : List Attr} {n0 : Nat} {row : List Col} (h : Ctx desc n0 row) {spec : Spec}
    {t : Tuple} (ht : Holds desc n0 row spec t) (c : Caches) (hcoh : Coh desc c) (i : Nat) (a : Attr)
    (hi : i < n0) (ha : desc[i]? = some a) :
    ∃ r c', fastGet desc spec t i c = .ok (r, c') ∧ Coh desc c' ∧
      (rowVals desc n0 row)[i]? = some (readVal a r) := by
  have hrl := ctx_len h
  obtain ⟨col, hcol⟩ : ∃ col, row[i]? = some col := ⟨_, List.getElem?_eq_getElem (by omega)⟩
  have hcached : (∀ c ∈ row, c.null = false) → ∀ tail, t.body = encRow (desc.take n0) row 0 ++ tail →
      ∃ r c', (if (c.getD i none).isSome then
        (fetch a (t.body.drop ((c.getD i none).getD 0))).bind fun r => R.ok (some r, c)
        else nocache desc spec t i c) = .ok (r, c') ∧ Coh desc c' ∧
        (rowVals desc n0 row)[i]? = some (readVal a r) := by
    intro hno tail hb
    by_cases h1 : (c.getD i none).isSome = true
    · rw [if_pos h1]
      obtain ⟨n, hc⟩ := Option.isSome_iff_exists.1 h1
      obtain ⟨r, h2, h3⟩ := cached_ok h c hcoh i n a col hc ha hcol
        (fun j _ cj hj => hno cj (List.mem_of_getElem? hj)) tail
      refine ⟨some r, c, ?_, hcoh, h3⟩
      rw [hc, hb]
      simp only [Option.getD_some, h2, R.bind]
    · rw [if_neg h1]
      exact nocache_ok h ht c hcoh i a col ha hcol (hno col (List.mem_of_getElem? hcol))
  unfold fastGet
  rw [ha]
  simp only [R.get]
  simp only [R.bind]
  cases hf : t.fixed with
  | true =>
    obtain ⟨h1, h2, tail, h3⟩ := ht.fixed hf
    simp only [if_true]
    rw [if_pos (by omega)]
    exact hcached h2 tail h3
  | false =>
    simp only [Bool.false_eq_true, if_false]
    cases hnl : t.hdr.hasnulls with
    | false =>
      obtain ⟨h2, tail, h3⟩ := ht.nonulls hf hnl
      simp only [Bool.not_false, if_true]
      exact hcached h2 tail h3
    | true =>
      obtain ⟨tail, h3⟩ := ht.nulls hf hnl
      have hnull := isNull_pad (row.map (·.null)) (encRow (desc.take n0) row 0 ++ tail) i col.null (by
        rw [List.getElem?_map, hcol]; rfl)
      rw [List.length_map, hrl, ← h3] at hnull
      simp only [Bool.not_true, Bool.false_eq_true, if_false, hnull]
      cases hcn : col.null with
      | true =>
        refine ⟨none, c, by simp, hcoh, ?_⟩
        rw [rowVals_lt h i a col ha hcol]
        simp [colVal, hcn, readVal]
      | false =>
        simp only [Bool.false_eq_true, if_false]
        exact nocache_ok h ht c hcoh i a col ha hcol hcn

end Verif.Tuple
