import Verif.Tuple.Whole

/-!
# Tuple format: properties C16, C17, C42, C43, C44, C45
-/

namespace Verif.Tuple

/-- A table as in the examples: row identifier, `int4`, `text`, `int8`, and two columns
added later, an `int4` with a default and a `text` without. -/
def exDesc : List Attr :=
  [⟨6, false, 2, true, none⟩, ⟨4, true, 4, true, none⟩, ⟨-1, false, 4, true, none⟩, ⟨8, true, 8, true, none⟩,
   ⟨4, true, 4, true, some (.num 77)⟩, ⟨-1, false, 4, true, none⟩]

theorem exDesc_ok : ∀ a ∈ exDesc, AttrOK a := by
  intro a ha
  simp only [exDesc, List.mem_cons, List.not_mem_nil, or_false] at ha
  rcases ha with rfl | rfl | rfl | rfl | rfl | rfl <;> exact ⟨by decide, by decide, by decide, by decide⟩

/-- A row from before the last two columns were added. -/
def exOld : Stored := ⟨4, ⟨some [1, 0, 0, 0, 5, 0], none, 0,
  [⟨false, none, .num 258⟩, ⟨false, none, .ptr [24, 0, 0, 0, 104, 105]⟩, ⟨false, none, .num 9⟩]⟩⟩

/-- A row with a null, a toasted column and a version. -/
def exNew : Stored := ⟨6, ⟨some [1, 0, 0, 0, 6, 0], none, 3,
  [⟨true, none, .num 0⟩, ⟨false, some ⟨2, 5000, 4000⟩, .ptr []⟩, ⟨false, none, .num 9⟩, ⟨false, none, .num 1⟩,
   ⟨false, none, .ptr [9, 120, 121, 122]⟩]⟩⟩

theorem exStored_ok : exOld.OK exDesc 4 ∧ exNew.OK exDesc 4 := by
  have key : ∀ s : Stored, s = exOld ∨ s = exNew → s.OK exDesc 4 := by
    intro s hs
    refine ⟨by rcases hs with rfl | rfl <;> decide, by rcases hs with rfl | rfl <;> decide,
      by rcases hs with rfl | rfl <;> decide,
      ⟨by rcases hs with rfl | rfl <;> (intro b hb; cases hb), by rcases hs with rfl | rfl <;> (intro b hb; cases hb)⟩,
      by rcases hs with rfl | rfl <;> decide, ?_⟩
    rcases hs with rfl | rfl
    · intro i a c ha hc
      rcases i with _ | _ | _ | _ | i <;> simp [exDesc, exOld, Input.row, idCol] at ha hc
      all_goals (subst ha; subst hc; simp [ColOK, DatumOK]; try decide)
    · intro i a c ha hc
      rcases i with _ | _ | _ | _ | _ | _ | i <;> simp [exDesc, exNew, Input.row, idCol] at ha hc
      all_goals (subst ha; subst hc; simp [ColOK, DatumOK]; try decide)
  exact ⟨key _ (Or.inl rfl), key _ (Or.inr rfl)⟩

theorem stored_ctx {desc : List Attr} {init : Nat} (ha : ∀ a ∈ desc, AttrOK a) {s : Stored}
    (h : s.OK desc init) : Ctx desc s.natts s.inp.row := ⟨ha, h.le, h.row⟩

/-- Forming a stored row. -/
theorem stored_form {desc : List Attr} {init : Nat} (ha : ∀ a ∈ desc, AttrOK a) (hlt : desc.length < 65536)
    {s : Stored} (h : s.OK desc init) :
    ∃ f hn, form (desc.take s.natts) (fixedSpec desc init) s.inp =
        .ok (rowTuple (desc.take s.natts) s.inp.row s.inp.version f hn) ∧
      newTupleSize (desc.take s.natts) (fixedSpec desc init) s.inp =
        .ok (rowSize (desc.take s.natts) s.inp.row f hn) ∧
      fill (desc.take s.natts) (fixedSpec desc init) s.inp (rowSize (desc.take s.natts) s.inp.row f hn) =
        .ok (rowTuple (desc.take s.natts) s.inp.row s.inp.version f hn, rowSize (desc.take s.natts) s.inp.row f hn) ∧
      (f = true → hn = false ∧ (fixedSpec desc init).natts = s.natts ∧ s.inp.version = 0) ∧
      (∀ (i : Nat) c, s.inp.row[i]? = some c → c.null = true → hn = true) ∧
      Holds desc s.natts s.inp.row (fixedSpec desc init)
        (rowTuple (desc.take s.natts) s.inp.row s.inp.version f hn) ∧
      formats s.inp s.inp.ctidOff (fixedSpec desc init) s.natts = .ok (f, hn) := by
  have hlen : (desc.take s.natts).length = s.natts := by rw [List.length_take]; have := h.le; omega
  have hs := fixedSpec_spec desc init hlt
  have hi := h.initLe
  obtain ⟨f, hn, h1, h2, h3, h4, h5⟩ := form_row (desc.take s.natts)
    (fun a hm => ha a (List.mem_of_mem_take hm)) s.inp h.inp (fixedSpec desc init) h.row
    (by rw [hlen]; omega) h.ids
  rw [hlen] at h3 h5
  refine ⟨f, hn, ?_, h1, h2, h3, h4, ?_, h5⟩
  · simp only [form, h1, R.bind, h2]
  · exact form_holds (stored_ctx ha h) _ hlt s.inp.version f hn (fun e => ⟨(h3 e).1, (h3 e).2.1⟩) h4

theorem zip_read (desc : List Attr) (vals : List (Option Val)) (rs : List (Option Read)) (n : Nat)
    (hv : vals.length = desc.length) (hn : n ≤ desc.length) (hr : rs.length = n)
    (h : ∀ (i : Nat) a r, desc[i]? = some a → rs[i]? = some r → vals[i]? = some (readVal a r)) :
    List.zipWith readVal (desc.take n) rs = vals.take n := by
  apply List.ext_getElem?
  intro i
  by_cases hi : i < n
  · obtain ⟨a, ha⟩ : ∃ a, desc[i]? = some a := ⟨_, List.getElem?_eq_getElem (by omega)⟩
    obtain ⟨r, hr⟩ : ∃ r, rs[i]? = some r := ⟨_, List.getElem?_eq_getElem (by omega)⟩
    rw [List.getElem?_zipWith, List.getElem?_take, if_pos hi, ha, hr, List.getElem?_take, if_pos hi, h i a r ha hr]
  · rw [List.getElem?_eq_none (by simp; omega), List.getElem?_eq_none (by simp; omega)]

/-- Requests whose answer is determined: reading at most the columns of the table, or
fetching one that the row has. -/
def Req.OK (desc : List Attr) (init : Nat) (r : Req) : Prop :=
  r.stored.OK desc init ∧
    match r with
    | .read _ n => n ≤ desc.length
    | .get s i => i < s.natts

theorem serve_ok (desc : List Attr) (init : Nat) (ha : ∀ a ∈ desc, AttrOK a) (hlt : desc.length < 65536)
    (rs : List Req) (hr : ∀ r ∈ rs, r.OK desc init) (c : Caches) (hc : Coh desc c) :
    ∃ vs, serve desc (fixedSpec desc init) rs c = .ok vs ∧
      List.zipWith (fun r v => List.zipWith readVal (r.attrs desc) v) rs vs = rs.map (·.want desc) := by
  induction rs generalizing c with
  | nil => exact ⟨[], rfl, rfl⟩
  | cons r rest ih =>
    obtain ⟨h1, h2⟩ := hr r (by simp)
    obtain ⟨f, hn, hform, -, -, -, -, hh, -⟩ := stored_form ha hlt h1
    have hctx := stored_ctx ha h1
    cases r with
    | read s n =>
      simp only [Req.stored] at hform hh hctx h1
      obtain ⟨v, c', h3, h4, h5, h6⟩ := readTuple_ok hctx hh c hc n h2
      obtain ⟨vs, h7, h8⟩ := ih (fun x hx => hr x (by simp [hx])) c' h4
      refine ⟨v :: vs, ?_, ?_⟩
      · simp only [serve, Req.stored, hform, R.bind, h3, h7]
      · simp only [List.zipWith_cons_cons, h8, List.map_cons]
        congr 1
        exact zip_read desc _ v n (rowVals_length hctx) h2 h5 h6
    | get s i =>
      simp only [Req.stored] at hform hh hctx h1
      simp only at h2
      have hle := h1.le
      obtain ⟨a, hai⟩ : ∃ a, desc[i]? = some a := ⟨_, List.getElem?_eq_getElem (by omega)⟩
      obtain ⟨v, c', h3, h4, h5⟩ := fastGet_ok hctx hh c hc i a h2 hai
      obtain ⟨vs, h7, h8⟩ := ih (fun x hx => hr x (by simp [hx])) c' h4
      refine ⟨[v] :: vs, ?_, ?_⟩
      · simp only [serve, Req.stored, hform, R.bind, h3, h7]
      · simp only [List.zipWith_cons_cons, h8, List.map_cons]
        congr 1
        have e1 : (desc.drop i).take 1 = [a] := by
          apply List.ext_getElem?
          intro j
          cases j with
          | zero => simp [hai]
          | succ j => simp; omega
        have e2 : ((rowVals desc s.natts s.inp.row).drop i).take 1 = [readVal a v] := by
          apply List.ext_getElem?
          intro j
          cases j with
          | zero => simp [h5]
          | succ j => simp; omega
        simp only [Req.attrs, Req.want, e1]
        exact e2.symm

/-- C16.  Rows of a table are stored and read, in any order and number, sharing the
cached offsets of the table, which are empty at first; some rows were stored when the
table had fewer columns.  Every column read is the value that was stored, and columns
added later have their default or are null.  Nothing is read outside the tuples. -/
theorem C16_round_trip (desc : List Attr) (init : Nat) (ha : ∀ a ∈ desc, AttrOK a) (hlt : desc.length < 65536)
    (rows : List (Stored × Nat)) (hr : ∀ r ∈ rows, r.1.OK desc init ∧ r.2 ≤ desc.length) :
    ∃ vs, serve desc (fixedSpec desc init) (rows.map fun r => .read r.1 r.2) (List.replicate desc.length none) = .ok vs ∧
      List.zipWith (fun r v => List.zipWith readVal (desc.take r.2) v) rows vs =
        rows.map fun r => (r.1.vals desc).take r.2 := by
  obtain ⟨vs, h1, h2⟩ := serve_ok desc init ha hlt (rows.map fun r => .read r.1 r.2) (by
    intro r hm
    obtain ⟨x, hx, rfl⟩ := List.mem_map.1 hm
    exact hr x hx) _ (coh_empty desc desc.length)
  refine ⟨vs, h1, ?_⟩
  rw [List.zipWith_map_left, List.map_map] at h2
  exact h2

/-- The values stored in columns that satisfy the conditions of C16 exist: no column is
lost by the comparison above. -/
theorem C16_defined (desc : List Attr) (init : Nat) (ha : ∀ a ∈ desc, AttrOK a) (s : Stored)
    (h : s.OK desc init) : ∀ v ∈ List.zipWith colVal (desc.take s.natts) s.inp.row, v.isSome = true := by
  intro v hv
  obtain ⟨i, hi, he⟩ := List.getElem_of_mem hv
  have hctx := stored_ctx ha h
  have hrl := ctx_len hctx
  have hle := h.le
  simp only [List.length_zipWith, List.length_take] at hi
  rw [List.getElem_zipWith, List.getElem_take] at he
  have h1 : desc[i]? = some desc[i] := List.getElem?_eq_getElem (by omega)
  have h2 : s.inp.row[i]? = some s.inp.row[i] := List.getElem?_eq_getElem (by omega)
  have hcok := ctx_col hctx i _ _ h1 h2
  rw [← he]
  cases hn : (s.inp.row[i]).null with
  | true => simp [colVal, hn]
  | false =>
    obtain ⟨r, -, -, h3⟩ := fetch_body desc[i] (ha _ (List.getElem_mem _)) s.inp.row[i] hcok hn []
    exact h3

example : (∀ a ∈ exDesc, AttrOK a) ∧ exOld.OK exDesc 4 ∧ exNew.OK exDesc 4 ∧
    exOld.vals exDesc = [some (.bytes [1, 0, 0, 0, 5, 0]), some (.num 258), some (.text false [104, 105]),
      some (.num 9), some (.num 77), some .null] ∧
    exNew.vals exDesc = [some (.bytes [1, 0, 0, 0, 6, 0]), some .null, some (.toasted ⟨2, 5000, 4000⟩),
      some (.num 9), some (.num 1), some (.text false [120, 121, 122])] :=
  ⟨exDesc_ok, exStored_ok.1, exStored_ok.2, by decide, by decide⟩

/-- The bytes a tuple takes. -/
def Tuple.bytes (t : Tuple) : Nat := (if t.fixed then 0 else HEADER) + t.body.length

/-- C17.  Missing: the size reported later, see `C17_violated`.  The size computed before
a row is stored is what storing it uses: nothing is written outside, the last column ends
at the end, and, if it is below 32768, it is also the size reported for the tuple. -/
theorem C17_size_partial (desc : List Attr) (init : Nat) (ha : ∀ a ∈ desc, AttrOK a) (hlt : desc.length < 65536)
    (s : Stored) (h : s.OK desc init) :
    ∃ size t, newTupleSize (desc.take s.natts) (fixedSpec desc init) s.inp = .ok size ∧
      fill (desc.take s.natts) (fixedSpec desc init) s.inp size = .ok (t, size) ∧ t.bytes = size ∧
      (size < 32768 → tupleSize t (fixedSpec desc init) = size) := by
  obtain ⟨f, hn, -, h1, h2, h3, h4, hh, -⟩ := stored_form ha hlt h
  have hctx := stored_ctx ha h
  have hlen : (desc.take s.natts).length = s.natts := by rw [List.length_take]; have := h.le; omega
  refine ⟨_, _, h1, h2, ?_, ?_⟩
  · cases f with
    | true => simp [rowTuple, Tuple.bytes, rowSize]
    | false =>
      cases hn with
      | false => simp [rowTuple, Tuple.bytes, rowSize, bitmapSize]
      | true =>
        have hpl := pad_length (s.inp.row.map (·.null))
        rw [List.length_map, ctx_len hctx] at hpl
        simp [rowTuple, Tuple.bytes, rowSize, bitmapSize, hlen, hpl]
        omega
  · intro hsz
    cases f with
    | false => simp only [tupleSize, rowTuple, Bool.false_eq_true, if_false]; exact Nat.mod_eq_of_lt hsz
    | true =>
      obtain ⟨h5, h6, h7⟩ := h3 rfl
      have hs := fixedSpec_spec desc init hlt
      rw [h6] at hs
      have he := encRow_fixed (desc.take s.natts) s.inp.row 0 (fun a hm => ha a (List.mem_of_mem_take hm)) h.row
        hs.2.2.1 (by
          have := (hh.fixed (by simp [rowTuple])).2.1
          exact this)
      rw [Nat.zero_add] at he
      simp only [rowSize, if_true, Nat.zero_add] at hsz
      simp only [tupleSize, rowTuple, if_true, rowSize, Nat.zero_add]
      rw [hs.2.2.2]
      have : endOff (desc.take s.natts) = (encRow (desc.take s.natts) s.inp.row 0).length := he.symm
      rw [this]
      exact Nat.mod_eq_of_lt (by omega)

example : newTupleSize (exDesc.take 4) (fixedSpec exDesc 4) exOld.inp = .ok 32 ∧
    newTupleSize exDesc (fixedSpec exDesc 4) exNew.inp = .ok 56 ∧
    (form exDesc (fixedSpec exDesc 4) exNew.inp) = .ok ⟨false, ⟨true, 56, 6, 3⟩,
      [61, 0, 0, 0, 0, 0, 0, 0, 1, 0, 0, 0, 6, 0, 1, 2, 0, 0, 136, 19, 0, 0, 160, 15, 0, 0, 0, 0, 0, 0, 0, 0,
       9, 0, 0, 0, 0, 0, 0, 0, 1, 0, 0, 0, 9, 120, 121, 122]⟩ := by
  refine ⟨by decide, by decide, by decide⟩

/-- A table with one `text` column. -/
def bigDesc : List Attr := [⟨-1, false, 4, true, none⟩]

/-- A row with a text of `n` letters. -/
def bigRow (n : Nat) : Stored := ⟨1, ⟨none, none, 0, [⟨false, none, .ptr (le 4 ((n + 4) * 4) ++ List.replicate n 65)⟩]⟩⟩

theorem le_small (w n : Nat) : ∀ x ∈ le w n, x < 256 := by
  induction w generalizing n with
  | zero => simp [le]
  | succ w ih =>
    intro x hx
    rcases List.mem_cons.1 hx with rfl | hx
    · omega
    · exact ih _ x hx

theorem bigRow_ok (n : Nat) (h1 : 126 < n) (h2 : n < 1000000) :
    (bigRow n).OK bigDesc 1 ∧
      ∃ t, form bigDesc (fixedSpec bigDesc 1) (bigRow n).inp = .ok t ∧ t.bytes = n + 12 ∧
        tupleSize t (fixedSpec bigDesc 1) = (n + 12) % 32768 := by
  have hb : ∀ a ∈ bigDesc, AttrOK a := by
    intro a ha
    simp only [bigDesc, List.mem_cons, List.not_mem_nil, or_false] at ha
    subst ha
    exact ⟨by decide, by decide, by decide, by decide⟩
  have hf := fromLe_le 4 ((n + 4) * 4)
  rw [Nat.mod_eq_of_lt (by omega)] at hf
  have ht : (le 4 ((n + 4) * 4) ++ List.replicate n 65).take 4 = le 4 ((n + 4) * 4) :=
    List.take_left' (le_length 4 _)
  have hlen : (le 4 ((n + 4) * 4) ++ List.replicate n 65).length = n + 4 := by
    simp [le_length]; omega
  have hs4 : size4 (le 4 ((n + 4) * 4) ++ List.replicate n 65) = n + 4 := by
    rw [size4, ht, hf]; omega
  have hsm : ∀ x ∈ le 4 ((n + 4) * 4) ++ List.replicate n 65, x < 256 := by
    intro x hx
    rcases List.mem_append.1 hx with hx | hx
    · exact le_small _ _ x hx
    · have := List.eq_of_mem_replicate hx
      omega
  have hhd : ∃ x m, le 4 ((n + 4) * 4) ++ List.replicate n 65 = x :: m ∧ x % 4 = 0 :=
    ⟨(n + 4) * 4 % 256, _, rfl, by omega⟩
  generalize hB : le 4 ((n + 4) * 4) ++ List.replicate n 65 = B at *
  obtain ⟨x, m, rfl, hx⟩ := hhd
  have htx : (textAt (x :: m)).isSome = true := by
    have hh : fromLe ((x :: m).take 4) / 4 = n + 4 := hs4
    unfold textAt
    simp only
    rw [if_neg (by omega), if_neg (by omega), hh, if_pos (by rw [hlen]; omega)]
    rfl
  have hx1 : ¬ x = 1 := by omega
  have hok : (bigRow n).OK bigDesc 1 := by
    refine ⟨Nat.le_refl 1, Nat.le_refl _, ?_, ⟨fun b e => (by cases e), fun b e => (by cases e)⟩, ?_⟩
    · exact Nat.zero_le _
    · refine ⟨rfl, ?_⟩
      intro i a c h3 h4
      cases i with
      | succ i => simp [bigRow, Input.row] at h4
      | zero =>
        simp [bigDesc, bigRow] at h3
        simp only [bigRow, Input.row, Option.toList_none, List.map_nil, List.nil_append,
          List.getElem?_cons_zero, Option.some.injEq] at h4
        subst h3
        rw [hB] at h4
        subst h4
        refine Or.inr ⟨rfl, hsm, ?_, ?_⟩
        · simp [valAt, hx1, htx]
        · simp [hx1]
  refine ⟨hok, ?_⟩
  obtain ⟨f, hn, h3, -, -, -, -, -, h4⟩ := stored_form hb (by decide) hok
  have hrow : (bigRow n).inp.row = [⟨false, none, .ptr (x :: m)⟩] := by
    simp [bigRow, Input.row, hB]
  have hfm : formats (bigRow n).inp (bigRow n).inp.ctidOff (fixedSpec bigDesc 1) (bigRow n).natts =
      .ok (false, false) := by
    simp [formats, bigRow, Input.ctidOff, Input.hasBridge, nullLoop, R.get, R.bind, fixedSpec, bigDesc, specLoop]
  rw [hfm] at h4
  cases h4
  have htk : bigDesc.take (bigRow n).natts = bigDesc := rfl
  rw [htk] at h3
  rw [hrow] at h3
  have hcs : canShort (x :: m) = false := by
    simp only [canShort, hs4]
    have : ¬ (n + 4 - 4 + 1 ≤ 127) := by omega
    rw [decide_eq_false this, Bool.and_false]
  have henc : encRow bigDesc [⟨false, none, .ptr (x :: m)⟩] 0 = x :: m := by
    have hne : ¬ x % 2 = 1 := by omega
    have htk : (x :: m).take (n + 4) = x :: m := List.take_of_length_le (by omega)
    simp [bigDesc, encRow, encCol, enc, hne, hcs, hs4, padLen, alignUp, htk]
  refine ⟨_, h3, ?_, ?_⟩
  · simp only [rowTuple, Tuple.bytes, henc, Bool.false_eq_true, if_false, List.nil_append, hlen, HEADER]
    omega
  · simp only [rowTuple, tupleSize, rowSize, henc, Bool.false_eq_true, if_false, hlen, HEADER, bitmapSize]
    congr 1
    omega

/-- C17 fails for large rows: a row with a text of 33000 bytes takes 33012 bytes, but is
reported as having 244. -/
theorem C17_violated : ∃ (desc : List Attr) (init : Nat) (s : Stored) (t : Tuple),
    (∀ a ∈ desc, AttrOK a) ∧ s.OK desc init ∧ form (desc.take s.natts) (fixedSpec desc init) s.inp = .ok t ∧
      t.bytes = 33012 ∧ tupleSize t (fixedSpec desc init) = 244 := by
  obtain ⟨h1, t, h2, h3, h4⟩ := bigRow_ok 33000 (by omega) (by omega)
  refine ⟨bigDesc, 1, bigRow 33000, t, ?_, h1, h2, h3, h4⟩
  intro a ha
  simp only [bigDesc, List.mem_cons, List.not_mem_nil, or_false] at ha
  subst ha
  exact ⟨by decide, by decide, by decide, by decide⟩

/-- C42.  Missing: columns added after the row was stored, see `C42_violated`.  Rows of a
table are stored and looked at, in any order and number, some by reading columns one
after the other and some by fetching one column directly, sharing the cached offsets.
Fetching a column the row was stored with gives the value that was stored, as reading
does. -/
theorem C42_direct_partial (desc : List Attr) (init : Nat) (ha : ∀ a ∈ desc, AttrOK a) (hlt : desc.length < 65536)
    (rs : List Req) (hr : ∀ r ∈ rs, r.OK desc init) :
    ∃ vs, serve desc (fixedSpec desc init) rs (List.replicate desc.length none) = .ok vs ∧
      List.zipWith (fun r v => List.zipWith readVal (r.attrs desc) v) rs vs = rs.map (·.want desc) :=
  serve_ok desc init ha hlt rs hr _ (coh_empty desc desc.length)

example : (∀ r ∈ [Req.read exNew 6, .get exOld 2, .get exNew 1, .get exNew 5, .get exOld 0], r.OK exDesc 4) ∧
    (Req.get exNew 5).want exDesc = [some (.text false [120, 121, 122])] := by
  refine ⟨?_, by decide⟩
  intro r hr
  simp only [List.mem_cons, List.not_mem_nil, or_false] at hr
  rcases hr with rfl | rfl | rfl | rfl | rfl
  · exact ⟨exStored_ok.2, by show 6 ≤ 6; omega⟩
  · exact ⟨exStored_ok.1, by show 2 < 4; omega⟩
  · exact ⟨exStored_ok.2, by show 1 < 6; omega⟩
  · exact ⟨exStored_ok.2, by show 5 < 6; omega⟩
  · exact ⟨exStored_ok.1, by show 0 < 4; omega⟩

/-- A table with an `int4` column to which another one with default 77 was added. -/
def addDesc : List Attr := [⟨4, true, 4, true, none⟩, ⟨4, true, 4, true, some (.num 77)⟩]

/-- Its rows. -/
def addRow (natts version : Nat) (vals : List Col) : Stored := ⟨natts, ⟨none, none, version, vals⟩⟩

theorem addRow_ok (natts version : Nat) (vals : List Col) (h1 : 1 ≤ natts) (h2 : natts ≤ 2)
    (h3 : vals.length = natts) (h4 : ∀ c ∈ vals, c.toast = none ∧ ∃ n, c.val = .num n) :
    (addRow natts version vals).OK addDesc 1 := by
  refine ⟨h2, h1, Nat.zero_le _, ⟨fun b e => (by cases e), fun b e => (by cases e)⟩, ?_, ?_⟩
  · simp only [addRow, Input.row, Option.toList_none, List.map_nil, List.nil_append, List.length_take, addDesc,
      List.length_cons, List.length_nil, h3]
    omega
  · intro i a c ha hc
    simp only [addRow, Input.row, Option.toList_none, List.map_nil, List.nil_append] at ha hc
    have ha' : a.byval = true := by
      have := List.mem_of_mem_take (List.mem_of_getElem? ha)
      simp only [addDesc, List.mem_cons, List.not_mem_nil, or_false] at this
      rcases this with rfl | rfl <;> rfl
    obtain ⟨h5, n, h6⟩ := h4 c (List.mem_of_getElem? hc)
    simp only [ColOK, h5]
    right
    rw [h6]
    exact ha'

/-- C42 fails for columns added later.  A row stored in the fixed format, or with a null,
before the column with default 77 was added: reading gives 77, fetching gives null.  A
row without nulls in the other format, after the offset of the new column was cached:
memory behind the tuple is read. -/
theorem C42_violated : ∃ (desc : List Attr) (init : Nat) (a b c d : Stored),
    (∀ x ∈ desc, AttrOK x) ∧ a.OK desc init ∧ b.OK desc init ∧ c.OK desc init ∧ d.OK desc init ∧
    a.vals desc = [some (.num 5), some (.num 77)] ∧
    serve desc (fixedSpec desc init) [.read a 2, .get a 1] [none, none] =
      .ok [[some (.num 5), some (.missing (.num 77))], [none]] ∧
    b.vals desc = [some .null, some (.num 77)] ∧
    serve desc (fixedSpec desc init) [.read b 2, .get b 1] [none, none] =
      .ok [[none, some (.missing (.num 77))], [none]] ∧
    c.vals desc = [some (.num 5), some (.num 77)] ∧
    serve desc (fixedSpec desc init) [.read d 2, .read c 2] [none, none] =
      .ok [[some (.num 5), some (.num 6)], [some (.num 5), some (.missing (.num 77))]] ∧
    serve desc (fixedSpec desc init) [.read d 2, .get c 1] [none, none] = .undef := by
  refine ⟨addDesc, 1, addRow 1 0 [⟨false, none, .num 5⟩], addRow 1 0 [⟨true, none, .num 0⟩],
    addRow 1 3 [⟨false, none, .num 5⟩], addRow 2 0 [⟨false, none, .num 5⟩, ⟨false, none, .num 6⟩], ?_,
    addRow_ok _ _ _ (by omega) (by omega) rfl ?_, addRow_ok _ _ _ (by omega) (by omega) rfl ?_,
    addRow_ok _ _ _ (by omega) (by omega) rfl ?_, addRow_ok _ _ _ (by omega) (by omega) rfl ?_,
    by decide, by decide, by decide, by decide, by decide, by decide, by decide⟩
  · intro a ha
    simp only [addDesc, List.mem_cons, List.not_mem_nil, or_false] at ha
    rcases ha with rfl | rfl <;> exact ⟨by decide, by decide, by decide, by decide⟩
  all_goals
    intro c hc
    simp only [List.mem_cons, List.not_mem_nil, or_false] at hc
    first
    | (subst hc; exact ⟨rfl, _, rfl⟩)
    | (rcases hc with rfl | rfl <;> exact ⟨rfl, _, rfl⟩)

/-- C43.  Missing: rows of 32768 bytes and more, see `C43_violated`.  A row that is
accepted does not take more bytes than the limit. -/
theorem C43_oversize_partial (desc : List Attr) (init : Nat) (ha : ∀ a ∈ desc, AttrOK a) (hlt : desc.length < 65536)
    (s : Stored) (h : s.OK desc init) (limit : Nat) :
    ∃ t, form (desc.take s.natts) (fixedSpec desc init) s.inp = .ok t ∧
      (t.bytes < 32768 → (sizeAccepted limit t (fixedSpec desc init) = true ↔ t.bytes ≤ limit)) := by
  obtain ⟨size, t, h1, h2, h3, h4⟩ := C17_size_partial desc init ha hlt s h
  refine ⟨t, by simp only [form, h1, R.bind, h2], ?_⟩
  intro h5
  rw [sizeAccepted, h4 (by omega)]
  rw [h3]
  simp

example : ∃ t, form exDesc (fixedSpec exDesc 4) exNew.inp = .ok t ∧ t.bytes < 32768 ∧
    sizeAccepted 2680 t (fixedSpec exDesc 4) = true ∧ sizeAccepted 40 t (fixedSpec exDesc 4) = false :=
  ⟨_, rfl, by decide, by decide, by decide⟩

/-- C43 fails: for every limit from 244 on (it is about 2700) a row of 33012 bytes is
accepted. -/
theorem C43_violated (limit : Nat) (hl : 244 ≤ limit) : ∃ (desc : List Attr) (init : Nat) (s : Stored) (t : Tuple),
    (∀ a ∈ desc, AttrOK a) ∧ s.OK desc init ∧ form (desc.take s.natts) (fixedSpec desc init) s.inp = .ok t ∧
      t.bytes = 33012 ∧ sizeAccepted limit t (fixedSpec desc init) = true := by
  obtain ⟨desc, init, s, t, h1, h2, h3, h4, h5⟩ := C17_violated
  refine ⟨desc, init, s, t, h1, h2, h3, h4, ?_⟩
  rw [sizeAccepted, h5]
  simp
  omega

/-- C44.  Changing the version of a stored row (of less than 32768 bytes) gives the tuple
that storing the row with that version gives, whatever the formats of the two. -/
theorem C44_set_version (desc : List Attr) (init : Nat) (ha : ∀ a ∈ desc, AttrOK a) (hlt : desc.length < 65536)
    (s : Stored) (h : s.OK desc init) (t : Tuple)
    (ht : form (desc.take s.natts) (fixedSpec desc init) s.inp = .ok t) (hsz : t.bytes + HEADER < 32768)
    (version : Nat) :
    ∃ t', setVersion (fixedSpec desc init) t version = .ok t' ∧
      form (desc.take s.natts) (fixedSpec desc init) { s.inp with version := version } = .ok t' ∧
      getVersion t' = version := by
  have hctx := stored_ctx ha h
  have hlen : (desc.take s.natts).length = s.natts := by rw [List.length_take]; have := h.le; omega
  have hrl : s.inp.row.length = s.natts := by rw [h.row.1, hlen]
  obtain ⟨f, hn, h1, h2, h3, h4, h5, h6, h7⟩ := stored_form ha hlt h
  rw [ht] at h1
  cases h1
  have hs := fixedSpec_spec desc init hlt
  have hle := h.le
  have hi := h.initLe
  have hids := h.ids
  have h' : (⟨s.natts, { s.inp with version := version }⟩ : Stored).OK desc init :=
    ⟨h.le, h.initLe, h.ids, ⟨h.inp.pkey, h.inp.other⟩, h.row⟩
  obtain ⟨f', hn', g1, g2, g3, g4, g5, g6, g7⟩ := stored_form ha hlt h'
  obtain ⟨v, hv⟩ := formats_version s.inp h.inp (fixedSpec desc init)
  have e1 := hv s.inp.version
  have e2 := hv version
  rw [hrl] at e1 e2
  have e1' := h7.symm.trans e1
  have e2' := g7.symm.trans e2
  simp only [R.ok.injEq, Prod.mk.injEq] at e1' e2'
  obtain ⟨hf, hv1⟩ := e1'
  obtain ⟨hf', hv2⟩ := e2'
  subst hv1
  replace hv2 := hv2.symm
  subst hv2
  have hcond : (s.natts - s.inp.ctidOff = 0 ∨ s.natts ≤ (fixedSpec desc init).natts) ↔
      s.natts = (fixedSpec desc init).natts := by omega
  simp only [hcond] at hf hf'
  have hrow : ∀ c ∈ s.inp.row, hn = false → c.null = false := by
    intro c hc e
    obtain ⟨i, hi, he⟩ := List.getElem_of_mem hc
    cases hcn : c.null with
    | false => rfl
    | true =>
      have := h5 i c (by rw [← he]; exact List.getElem?_eq_getElem hi) hcn
      rw [e] at this; cases this
  have hbytes : (encRow (desc.take s.natts) s.inp.row 0).length ≤
      (rowTuple (desc.take s.natts) s.inp.row s.inp.version f hn).bytes := by
    simp only [rowTuple, Tuple.bytes]
    split <;> simp <;> omega
  -- the length in the specification is exact for rows in the fixed format
  have hfix : hn = false → s.natts = (fixedSpec desc init).natts →
      (fixedSpec desc init).len = (encRow (desc.take s.natts) s.inp.row 0).length := by
    intro e1 e2
    have := encRow_fixed (desc.take s.natts) s.inp.row 0 (fun a hm => ha a (List.mem_of_mem_take hm)) h.row
      (by rw [e2]; exact hs.2.2.1) (fun c hc => hrow c hc e1)
    rw [hs.2.2.2, endOff, ← e2, ← this, Nat.zero_add, Nat.mod_eq_of_lt (by omega)]
  refine ⟨_, ?_, g1, ?_⟩
  · have hcopy : ∀ l : List Nat, copy l l.length = .ok l := by
      intro l; simp [copy]
    have hnm : s.natts % 65536 = s.natts := Nat.mod_eq_of_lt (by omega)
    show setVersion _ _ _ = .ok (rowTuple (desc.take s.natts) s.inp.row version f' hn)
    clear h' g1 g2 g3 g4 g5 g6 g7 e1 e2 hv
    simp only [setVersion]
    by_cases hN : s.natts = (fixedSpec desc init).natts
    · cases hn with
      | true =>
        simp only [Bool.not_true, Bool.and_false, Bool.false_and] at hf hf'
        subst hf
        subst hf'
        simp [rowTuple]
      | false =>
        have hL := hfix rfl hN
        rw [hL, ← hN]
        simp only [hN.symm, Bool.not_false, Bool.and_true, decide_true] at hf hf'
        subst hf
        subst hf'
        by_cases hv0 : s.inp.version = 0 <;> by_cases hv1 : version = 0
        all_goals simp [rowTuple, hv0, hv1, hcopy, R.bind, rowSize, bitmapSize, hlen, hnm]
    · simp only [hN, decide_false, Bool.and_false] at hf hf'
      subst hf
      subst hf'
      simp [rowTuple, hlen, hnm, hN]
  · simp only [rowTuple, getVersion]
    cases f' with
    | true => exact (g4 rfl).2.2.symm
    | false => simp

/-- An index entry in the fixed format: `int4` and the row identifier. -/
def keyDesc : List Attr := [⟨4, true, 4, true, none⟩, ⟨6, false, 2, true, none⟩]

/-- Its rows. -/
def keyRow (version : Nat) : Stored :=
  ⟨2, ⟨none, none, version, [⟨false, none, .num 7⟩, idCol [1, 0, 0, 0, 5, 0]]⟩⟩

theorem keyRow_ok (version : Nat) : (∀ a ∈ keyDesc, AttrOK a) ∧ (keyRow version).OK keyDesc 2 := by
  refine ⟨?_, Nat.le_refl _, Nat.le_refl _, Nat.zero_le _, ⟨fun b e => (by cases e), fun b e => (by cases e)⟩, rfl, ?_⟩
  · intro a ha
    simp only [keyDesc, List.mem_cons, List.not_mem_nil, or_false] at ha
    rcases ha with rfl | rfl <;> exact ⟨by decide, by decide, by decide, by decide⟩
  · intro i a c ha hc
    rcases i with _ | _ | i <;> simp [keyDesc, keyRow, Input.row, idCol] at ha hc
    all_goals (subst ha; subst hc; simp [ColOK, DatumOK]; try decide)

/-- The case of `C44_set_version`: from the fixed format and back. -/
example : ∃ t t', form keyDesc (fixedSpec keyDesc 2) (keyRow 0).inp = .ok t ∧ t.fixed = true ∧ t.bytes + HEADER < 32768 ∧
    setVersion (fixedSpec keyDesc 2) t 9 = .ok t' ∧ t'.fixed = false ∧ getVersion t' = 9 ∧
    setVersion (fixedSpec keyDesc 2) t' 0 = .ok t :=
  ⟨_, _, rfl, by decide, by decide, rfl, by decide, by decide, by decide⟩

theorem idCol_encCol {a : Attr} (h1 : a.len = 6) (b : List Nat) (off : Nat) :
    encCol a (idCol b) off = List.replicate (alignUp off a.align - off) 0 ++ b.take 6 := by
  simp [encCol, idCol, enc, h1, padLen]

/-- C45.  Writing another identifier over that of a stored row gives the tuple that
storing the row with that identifier gives. -/
theorem C45_set_ctid (desc : List Attr) (init : Nat) (ha : ∀ a ∈ desc, AttrOK a) (hlt : desc.length < 65536)
    (s : Stored) (h : s.OK desc init) (a0 : Attr) (as : List Attr) (hd : desc = a0 :: as) (h0 : a0.len = 6)
    (old new : List Nat) (hold : s.inp.iptr = some old) (hnew : new.length = 6) (hb : ∀ x ∈ new, x < 256)
    (t : Tuple) (ht : form (desc.take s.natts) (fixedSpec desc init) s.inp = .ok t) :
    ∃ t', setCtid t new = .ok t' ∧
      form (desc.take s.natts) (fixedSpec desc init) { s.inp with iptr := some new } = .ok t' := by
  obtain ⟨natts, iptr, bridge, version, vals⟩ := s
  simp only at hold
  subst hold
  have hlen : (desc.take natts).length = natts := by rw [List.length_take]; have := h.le; simp only at this; omega
  have hrl : (Input.row ⟨some old, bridge, version, vals⟩).length = natts := by rw [h.row.1, hlen]
  obtain ⟨f, hn, h1, -, -, h4, h5, -, h7⟩ := stored_form ha hlt h
  simp only at h1 h4 h5 h7 ht
  rw [ht] at h1
  cases h1
  have hle := h.le
  simp only at hle
  -- the row after the identifier
  obtain ⟨cs, hcs⟩ : ∃ cs, ∀ b, Input.row ⟨some b, bridge, version, vals⟩ = idCol b :: cs := by
    refine ⟨(Input.row ⟨none, bridge, version, vals⟩), fun b => ?_⟩
    simp only [Input.row, Option.toList_some, Option.toList_none, List.map_cons, List.map_nil, List.cons_append,
      List.nil_append]
  have hpos : 0 < natts := by rw [← hrl, hcs]; simp
  have htake : desc.take natts = a0 :: as.take (natts - 1) := by
    subst hd
    cases natts with
    | zero => omega
    | succ n => simp
  have hOld : ColOK a0 (idCol old) := h.row.2 0 a0 (idCol old) (by rw [htake]; rfl) (by rw [hcs]; rfl)
  have hby : a0.byval = false ∧ 6 ≤ old.length := by
    simp only [ColOK, idCol, DatumOK, Bool.false_eq_true, false_or] at hOld
    refine ⟨hOld.1, ?_⟩
    have := hOld.2.2.1
    simp only [valAt, h0] at this
    by_cases hl : 6 ≤ old.length
    · exact hl
    · exfalso
      revert this
      simp
      omega
  have hNew : ColOK a0 (idCol new) := by
    refine Or.inr ⟨hby.1, hb, ?_, by rw [h0]; intro h; omega⟩
    simp [valAt, h0, hnew]
  have h' : (⟨natts, ⟨some new, bridge, version, vals⟩⟩ : Stored).OK desc init := by
    refine ⟨h.le, h.initLe, ?_, ⟨?_, ?_⟩, ?_, ?_⟩
    · exact h.ids
    · exact h.inp.pkey
    · intro b e1 e2; exact absurd (h.inp.other b e1 e2).1 (by intro e; cases e)
    · have := h.row.1
      simp only [hcs] at this ⊢
      simpa using this
    · intro i a c hai hci
      simp only [hcs] at hci
      cases i with
      | zero =>
        simp only [List.getElem?_cons_zero, Option.some.injEq] at hci
        rw [htake] at hai
        simp only [List.getElem?_cons_zero, Option.some.injEq] at hai
        subst hai; subst hci
        exact hNew
      | succ i => exact h.row.2 (i + 1) a c hai (by simp only [hcs]; exact hci)
  obtain ⟨f', hn', g1, -, -, -, -, -, g7⟩ := stored_form ha hlt h'
  simp only at g1 g7
  have hfeq : formats ⟨some old, bridge, version, vals⟩ (Input.ctidOff ⟨some old, bridge, version, vals⟩)
      (fixedSpec desc init) natts = formats ⟨some new, bridge, version, vals⟩
      (Input.ctidOff ⟨some new, bridge, version, vals⟩) (fixedSpec desc init) natts := by
    have : ∀ off n i st, nullLoop ⟨some old, bridge, version, vals⟩ off (fixedSpec desc init) n i st =
        nullLoop ⟨some new, bridge, version, vals⟩ off (fixedSpec desc init) n i st := by
      intro off n
      induction n with
      | zero => intro i st; rfl
      | succ n ih => intro i st; simp only [nullLoop, ih]
    exact this _ _ _ _
  have e : R.ok (f, hn) = R.ok (f', hn') := h7.symm.trans (Eq.trans hfeq g7)
  cases e
  refine ⟨_, ?_, g1⟩
  have hb0 : alignUp 0 a0.align - 0 = 0 := by
    have := (ha a0 (by rw [hd]; simp)).align
    rcases this with e | e | e | e <;> rw [e] <;> decide
  have henc : ∀ b : List Nat, 6 ≤ b.length → encRow (desc.take natts) (idCol b :: cs) 0 =
      b.take 6 ++ encRow (as.take (natts - 1)) cs 6 := by
    intro b hb6
    rw [htake, encRow, idCol_encCol h0 b 0, hb0]
    simp [Nat.min_eq_left hb6]
  have hn6 : new.take 6 = new := List.take_of_length_le (by omega)
  have hEo := henc old hby.2
  have hEn := henc new (by omega)
  rw [hn6] at hEn
  simp only [hcs, List.map_cons] at *
  have hnl : (idCol old).null = (idCol new).null := rfl
  have key : ∀ (P rest : List Nat), W.write ⟨P.length, P ++ (old.take 6 ++ rest)⟩ new =
      .ok ⟨P.length, P ++ (new ++ rest)⟩ := by
    intro P rest
    have hl6 : (old.take 6).length = 6 := by rw [List.length_take]; omega
    rw [W.write, if_neg (by simp only [List.length_append, hl6, hnew]; omega)]
    refine congrArg R.ok ?_
    refine congrArg (W.mk _) ?_
    rw [List.take_left, hnew, ← List.append_assoc P (old.take 6) rest,
      List.drop_left' (by rw [List.length_append, hl6]), List.append_assoc]
  simp only [setCtid]
  have hnm : natts % 65536 = natts := Nat.mod_eq_of_lt (by omega)
  have hrs : ∀ g, rowSize (desc.take natts) (idCol old :: cs) false g =
      rowSize (desc.take natts) (idCol new :: cs) false g := by
    intro g
    simp only [rowSize, hEo, hEn, List.length_append, List.length_take, hnew]
    rw [Nat.min_eq_left hby.2]
  cases f with
  | true =>
    have := key [] (encRow (as.take (natts - 1)) cs 6)
    simp only [List.nil_append, List.length_nil] at this
    simp only [rowTuple, Bool.not_true, Bool.false_and, Bool.false_eq_true, if_false, if_true, hEo, hEn]
    rw [this]
    rfl
  | false =>
    cases hn with
    | false =>
      have := key [] (encRow (as.take (natts - 1)) cs 6)
      simp only [List.nil_append, List.length_nil] at this
      simp only [rowTuple, Bool.and_false, Bool.false_eq_true, if_false, List.nil_append, hrs, hEn]
      rw [hEo, this]
      rfl
    | true =>
      have hpl := pad_length ((idCol old).null :: cs.map (·.null))
      have hcl : ((idCol old).null :: cs.map (·.null)).length = natts := by
        simpa using hrl
      rw [hcl] at hpl
      have := key (pad (bitsOf ((idCol old).null :: cs.map (·.null)) ⟨[], 128⟩).rev.reverse (maxAlign (bitmapLen natts)))
        (encRow (as.take (natts - 1)) cs 6)
      rw [hpl] at this
      simp only [rowTuple, Bool.not_false, Bool.and_true, Bool.false_eq_true, if_false, if_true, hrs, hEn, hlen, hnm,
        List.map_cons]
      rw [hEo, this]
      rfl

example : exNew.OK exDesc 4 ∧ exNew.inp.iptr = some [1, 0, 0, 0, 6, 0] ∧ exDesc.head?.map (·.len) = some 6 ∧
    ((form exDesc (fixedSpec exDesc 4) exNew.inp).bind fun t => setCtid t [9, 9, 9, 9, 9, 9]) =
      form exDesc (fixedSpec exDesc 4) { exNew.inp with iptr := some [9, 9, 9, 9, 9, 9] } :=
  ⟨exStored_ok.2, rfl, rfl, by decide⟩

theorem encRow_snoc (as : List Attr) (cs : List Col) (a : Attr) (c : Col) (off : Nat) (h : cs.length = as.length) :
    ∃ o, encRow (as ++ [a]) (cs ++ [c]) off = encRow as cs off ++ encCol a c o := by
  induction as generalizing cs off with
  | nil =>
    cases cs with
    | nil => exact ⟨off, by simp [encRow]⟩
    | cons c cs => simp at h
  | cons a' as ih =>
    cases cs with
    | nil => simp at h
    | cons c' cs =>
      obtain ⟨o, ho⟩ := ih cs (off + (encCol a' c' off).length) (by simpa using h)
      exact ⟨o, by simp [encRow, ho]⟩

/-- C45.  In an index whose entries end with the row identifier, that identifier is found
at the end of every entry (of less than 32768 bytes). -/
theorem C45_last_iptr (desc : List Attr) (init : Nat) (ha : ∀ a ∈ desc, AttrOK a) (hlt : desc.length < 65536)
    (s : Stored) (h : s.OK desc init) (hnat : s.natts = desc.length)
    (as : List Attr) (a : Attr) (hd : desc = as ++ [a]) (h0 : a.len = 6)
    (cs : List Col) (id : List Nat) (hr : s.inp.row = cs ++ [idCol id]) (hid : id.length = 6)
    (t : Tuple) (ht : form desc (fixedSpec desc init) s.inp = .ok t) (hsz : t.bytes < 32768) :
    ∃ rest, lastIptr desc (fixedSpec desc init) t = .ok (some rest) ∧ rest.take 6 = id := by
  have htk : desc.take s.natts = desc := by rw [hnat, List.take_length]
  have hrow := h.row
  rw [htk] at hrow
  obtain ⟨f, hn, h1, -, -, h4, h5, -, -⟩ := stored_form ha hlt h
  rw [htk, ht] at h1
  cases h1
  have hl : cs.length = as.length := by
    have := hrow.1
    rw [hr, hd] at this
    simpa using this
  obtain ⟨o, ho⟩ := encRow_snoc as cs a (idCol id) 0 hl
  rw [← hd, ← hr, idCol_encCol h0, List.take_of_length_le (by omega), ← List.append_assoc] at ho
  generalize hP : encRow as cs 0 ++ List.replicate (alignUp o a.align - o) 0 = P at ho
  have hdrop : ∀ Q : List Nat, ((Q ++ (P ++ id)).drop ((Q ++ (P ++ id)).length - 6)).take 6 = id := by
    intro Q
    rw [← List.append_assoc, List.drop_left' (by simp; omega)]
    exact List.take_of_length_le (by omega)
  have hs := fixedSpec_spec desc init hlt
  cases f with
  | true =>
    obtain ⟨hh, hsn, -⟩ := h4 rfl
    have hno : ∀ c ∈ s.inp.row, c.null = false := by
      intro c hc
      obtain ⟨i, hi, he⟩ := List.getElem_of_mem hc
      cases hcn : c.null with
      | false => rfl
      | true =>
        have := h5 i c (by rw [← he]; exact List.getElem?_eq_getElem hi) hcn
        rw [hh] at this; cases this
    have hL : (fixedSpec desc init).len = (encRow desc s.inp.row 0).length := by
      have := encRow_fixed desc s.inp.row 0 ha hrow
        (by
          intro b hb
          refine hs.2.2.1 b ?_
          rw [hsn, htk]
          exact hb) hno
      rw [hs.2.2.2, endOff, hsn, htk, ← this, Nat.zero_add, Nat.mod_eq_of_lt]
      simp only [rowTuple, Tuple.bytes, if_true] at hsz
      omega
    rw [lastIptr]
    simp only [rowTuple, if_true, Bool.not_true, Bool.false_eq_true, if_false]
    rw [if_neg (by omega), hL, ho, if_neg (by simp [hid])]
    exact ⟨_, rfl, by simpa using hdrop []⟩
  | false =>
    simp only [rowTuple, Tuple.bytes, Bool.false_eq_true, if_false] at hsz
    rw [lastIptr]
    simp only [rowTuple, Bool.false_eq_true, if_false, Bool.not_false, if_true]
    cases hn with
    | false =>
      simp only [Bool.false_eq_true, if_false, R.bind, List.nil_append, rowSize, bitmapSize] at hsz ⊢
      rw [ho] at hsz ⊢
      have hm : (HEADER + 0 + (P ++ id).length) % 32768 = HEADER + (P ++ id).length := by
        rw [Nat.mod_eq_of_lt] <;> omega
      rw [hm, if_neg (by simp [hid])]
      refine ⟨_, rfl, ?_⟩
      have : HEADER + (P ++ id).length - HEADER - 6 = (P ++ id).length - 6 := by omega
      rw [this]
      simpa using hdrop []
    | true =>
      simp only [if_true, rowSize, bitmapSize] at hsz ⊢
      have hml : (s.inp.row.map (·.null)).length = desc.length := by rw [List.length_map, hrow.1]
      have hnl := isNull_pad (s.inp.row.map (·.null)) (encRow desc s.inp.row 0) (desc.length - 1) false (by
        rw [hr, hd]
        simp [← hl, idCol])
      have hpl := pad_length (s.inp.row.map (·.null))
      rw [hml] at hnl hpl
      rw [hnl]
      simp only [R.bind, Bool.false_eq_true, if_false]
      generalize hQ : pad (bitsOf (s.inp.row.map (·.null)) ⟨[], 128⟩).rev.reverse (maxAlign (bitmapLen desc.length)) = Q at *
      rw [ho] at hsz ⊢
      rw [← hpl]
      rw [List.length_append (as := Q)] at hsz
      have hm : (HEADER + Q.length + (P ++ id).length) % 32768 = HEADER + Q.length + (P ++ id).length := by
        rw [Nat.mod_eq_of_lt]; omega
      rw [hm, if_neg (by simp [hid]; omega)]
      refine ⟨_, rfl, ?_⟩
      have : HEADER + Q.length + (P ++ id).length - HEADER - 6 = (Q ++ (P ++ id)).length - 6 := by
        rw [List.length_append (as := Q)]; omega
      rw [this]
      exact hdrop Q

example : (keyRow 3).OK keyDesc 2 ∧ (keyRow 3).natts = keyDesc.length ∧
    (keyRow 3).inp.row = [⟨false, none, .num 7⟩] ++ [idCol [1, 0, 0, 0, 5, 0]] ∧
    ∃ t, form keyDesc (fixedSpec keyDesc 2) (keyRow 3).inp = .ok t ∧ t.bytes < 32768 ∧
      lastIptr keyDesc (fixedSpec keyDesc 2) t = .ok (some [1, 0, 0, 0, 5, 0]) :=
  ⟨(keyRow_ok 3).2, rfl, rfl, _, rfl, by decide, by decide⟩

end Verif.Tuple
