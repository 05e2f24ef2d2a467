import Verif.Tuple.One
import Verif.Tuple.Bitmap

/-!
# Writing and reading rows
-/

namespace Verif.Tuple

/-! ## The columns of the caller -/

theorem ctidOff_fill (inp : Input) (h : inp.OK) : inp.ctidOffFill = inp.ctidOff := by
  unfold Input.ctidOffFill Input.ctidOff Input.hasBridge
  cases hb : inp.bridge with
  | none => simp
  | some b =>
    cases hp : b.isPkey with
    | true =>
      have := h.pkey b hb hp
      simp [this, hp]
    | false => simp [hp]

theorem ctidOff_le (inp : Input) (h : inp.OK) : inp.ctidOff ≤ inp.row.length := by
  unfold Input.ctidOff Input.row Input.hasBridge
  cases hb : inp.bridge with
  | none => cases inp.iptr <;> simp
  | some b =>
    cases hp : b.isPkey with
    | true => cases inp.iptr <;> simp [hp] <;> split <;> omega
    | false => cases inp.iptr <;> simp [hp]

/-- The arrays hold the rest of the row. -/
theorem row_vals (inp : Input) (h : inp.OK) : inp.row.length = inp.ctidOff + inp.vals.length := by
  unfold Input.ctidOff Input.row Input.hasBridge
  cases hb : inp.bridge with
  | none => cases inp.iptr <;> simp <;> omega
  | some b =>
    cases hp : b.isPkey with
    | true =>
      have := h.pkey b hb hp
      cases inp.iptr <;> simp [hp, this] <;> omega
    | false =>
      have := h.other b hb hp
      simp [this.1, hp]

theorem col_row (inp : Input) (h : inp.OK) (i : Nat) (c : Col) (hc : inp.row[i]? = some c) :
    inp.col inp.ctidOff i = .ok c := by
  unfold Input.row at hc
  unfold Input.col Input.ctidOff Input.hasBridge
  cases hb : inp.bridge with
  | none =>
    rw [hb] at hc
    cases hi : inp.iptr with
    | none =>
      rw [hi] at hc
      simp at hc
      cases i <;> simp [R.get, hc]
    | some p =>
      rw [hi] at hc
      cases i with
      | zero =>
        simp at hc
        simp [← hc, idCol]
      | succ i =>
        simp at hc
        simp [R.get, hc]
  | some b =>
    rw [hb] at hc
    cases hp : b.isPkey with
    | true =>
      have hat := h.pkey b hb hp
      simp only [hp, if_true] at hc
      cases hi : inp.iptr with
      | none =>
        rw [hi] at hc hat
        simp at hc hat
        cases i with
        | zero =>
          simp at hc
          simp [hat, ← hc, idCol]
        | succ i =>
          simp at hc
          simp [hat, hp, R.get, hc]
      | some p =>
        rw [hi] at hc hat
        simp at hc hat
        cases i with
        | zero =>
          simp at hc
          simp [← hc, idCol]
        | succ i =>
          cases i with
          | zero =>
            simp at hc
            simp [hat, ← hc, idCol]
          | succ i =>
            simp at hc
            simp [hat, hp, R.get, hc]
    | false =>
      have ho := h.other b hb hp
      rw [ho.1] at hc ⊢
      simp only [hp] at hc
      simp at hc
      have hz : b.attnum ≠ 0 := by omega
      have key : (if b.attnum ≠ 0 ∧ i = b.attnum - 1 then R.ok (⟨false, none, .ptr b.iptr⟩ : Col)
          else R.get inp.vals[i]?) = .ok c := by
        by_cases hi : i = b.attnum - 1
        · rw [if_pos ⟨hz, hi⟩]
          rw [hi, List.getElem?_set_self (by omega)] at hc
          cases hc
          rfl
        · rw [if_neg (by omega)]
          rw [List.getElem?_set_ne (by omega)] at hc
          rw [hc]
          rfl
      cases i with
      | zero => simpa [hp] using key
      | succ i => simpa [hp] using key

theorem nullLoop_spec (inp : Input) (off : Nat) (spec : Spec) (n i : Nat) (f h : Bool)
    (hv : ∀ j, i ≤ j → j < i + n → (inp.vals[j - off]?).isSome) :
    ∃ f' h', nullLoop inp off spec n i (f, h) = .ok (f', h') ∧ (h = true → h' = true) ∧
      (f' = true → f = true ∧ h' = h) ∧
      (∀ j c, i ≤ j → j < i + n → inp.vals[j - off]? = some c → c.null = true → h' = true) ∧
      (f' = true → ∀ j c, i ≤ j → j < i + n → inp.vals[j - off]? = some c → c.null = false ∧ j < spec.natts) := by
  induction n generalizing i f h with
  | zero =>
    refine ⟨f, h, rfl, id, fun e => ⟨e, rfl⟩, ?_, ?_⟩
    · intro j c h1 h2; omega
    · intro _ j c h1 h2; omega
  | succ n ih =>
    obtain ⟨c, hc⟩ := Option.isSome_iff_exists.1 (hv i (by omega) (by omega))
    simp only [nullLoop, hc, R.get, R.bind]
    have hv' : ∀ j, i + 1 ≤ j → j < i + 1 + n → (inp.vals[j - off]?).isSome :=
      fun j h1 h2 => hv j (by omega) (by omega)
    cases hn : c.null with
    | true =>
      obtain ⟨f', h', e, h1, h2, h3, h4⟩ := ih (i + 1) false true hv'
      refine ⟨f', h', by simpa using e, fun _ => h1 rfl, fun e => (by cases (h2 e).1), fun _ _ _ _ _ _ => h1 rfl,
        fun e => (by cases (h2 e).1)⟩
    | false =>
      by_cases hi : i ≥ spec.natts
      · obtain ⟨f', h', e, h1, h2, h3, h4⟩ := ih (i + 1) false h hv'
        refine ⟨f', h', by simpa [hi] using e, h1, fun e => (by cases (h2 e).1), ?_, fun e => (by cases (h2 e).1)⟩
        intro j c' hj1 hj2 hjc hjn
        by_cases hji : j = i
        · subst hji
          rw [hc] at hjc; cases hjc
          rw [hn] at hjn; cases hjn
        · exact h3 j c' (by omega) (by omega) hjc hjn
      · obtain ⟨f', h', e, h1, h2, h3, h4⟩ := ih (i + 1) f h hv'
        refine ⟨f', h', by simpa [hi] using e, h1, h2, ?_, ?_⟩
        · intro j c' hj1 hj2 hjc hjn
          by_cases hji : j = i
          · subst hji
            rw [hc] at hjc; cases hjc
            rw [hn] at hjn; cases hjn
          · exact h3 j c' (by omega) (by omega) hjc hjn
        · intro hf j c' hj1 hj2 hjc
          by_cases hji : j = i
          · subst hji
            rw [hc] at hjc; cases hjc
            exact ⟨hn, by omega⟩
          · exact h4 hf j c' (by omega) (by omega) hjc

/-- The choice of format: null columns are announced, the fixed format is only chosen
without nulls and for columns of the initial fixed part. -/
theorem formats_spec (inp : Input) (h : inp.OK) (spec : Spec) :
    ∃ f hn, formats inp inp.ctidOff spec inp.row.length = .ok (f, hn) ∧
      (∀ (i : Nat) c, inp.row[i]? = some c → c.null = true → hn = true) ∧
      (f = true → hn = false ∧ inp.version = 0 ∧ (∀ (i : Nat) c, inp.row[i]? = some c → c.null = false) ∧
        (inp.row.length ≤ spec.natts ∨ inp.row.length = inp.ctidOff)) := by
  have hlen := row_vals inp h
  have hidx : ∀ j, inp.ctidOff ≤ j → j < inp.ctidOff + (inp.row.length - inp.ctidOff) →
      (inp.vals[j - inp.ctidOff]?).isSome := by
    intro j h1 h2
    rw [List.getElem?_eq_getElem (by omega)]
    rfl
  obtain ⟨f, hn, e, -, h2, h3, h4⟩ :=
    nullLoop_spec inp inp.ctidOff spec (inp.row.length - inp.ctidOff) inp.ctidOff (inp.version == 0) false hidx
  -- a null column of the row is a null element of the arrays
  have key : ∀ (i : Nat) c, inp.row[i]? = some c → c.null = true →
      inp.ctidOff ≤ i ∧ inp.vals[i - inp.ctidOff]? = some c := by
    intro i c hc hnull
    unfold Input.row at hc
    unfold Input.ctidOff Input.hasBridge
    cases hb : inp.bridge with
    | none =>
      rw [hb] at hc
      cases hi : inp.iptr with
      | none => rw [hi] at hc; simp at hc; simp [hc]
      | some p =>
        rw [hi] at hc
        cases i with
        | zero => simp at hc; rw [← hc] at hnull; cases hnull
        | succ i => simp at hc; simp [hc]
    | some b =>
      rw [hb] at hc
      cases hp : b.isPkey with
      | true =>
        have hat := h.pkey b hb hp
        simp only [hp, if_true] at hc
        cases hi : inp.iptr with
        | none =>
          rw [hi] at hc hat
          simp at hc hat
          cases i with
          | zero => simp at hc; rw [← hc] at hnull; cases hnull
          | succ i => simp at hc; simp [hat, hp, hc]
        | some p =>
          rw [hi] at hc hat
          simp at hc hat
          cases i with
          | zero => simp at hc; rw [← hc] at hnull; cases hnull
          | succ i =>
            cases i with
            | zero => simp at hc; rw [← hc] at hnull; cases hnull
            | succ i => simp at hc; simp [hat, hp, hc]
      | false =>
        have ho := h.other b hb hp
        rw [ho.1] at hc ⊢
        simp only [hp] at hc
        simp at hc
        by_cases hi : i = b.attnum - 1
        · rw [hi, List.getElem?_set_self (by omega)] at hc
          cases hc
          cases hnull
        · rw [List.getElem?_set_ne (by omega)] at hc
          simp [hp, hc]
  refine ⟨f, hn, e, ?_, ?_⟩
  · intro i c hc hnull
    have hk := key i c hc hnull
    have hi : i < inp.row.length := (List.getElem?_eq_some_iff.1 hc).1
    exact h3 i c hk.1 (by omega) hk.2 hnull
  · intro hf
    have h5 := h2 hf
    refine ⟨h5.2, by simpa using h5.1, ?_, ?_⟩
    · intro i c hc
      cases hnull : c.null with
      | false => rfl
      | true =>
        have hk := key i c hc hnull
        have hi : i < inp.row.length := (List.getElem?_eq_some_iff.1 hc).1
        have := (h4 hf i c hk.1 (by omega) hk.2).1
        rw [hnull] at this
        cases this
    · by_cases hlt : inp.ctidOff < inp.row.length
      · left
        have hs := hidx (inp.row.length - 1) (by omega) (by omega)
        obtain ⟨c, hc⟩ := Option.isSome_iff_exists.1 hs
        have := (h4 hf (inp.row.length - 1) c (by omega) (by omega) hc).2
        omega
      · right
        omega

/-- The choice of format in closed form. -/
theorem nullLoop_closed (inp : Input) (off : Nat) (spec : Spec) (n i : Nat)
    (hv : ∀ j, i ≤ j → j < i + n → (inp.vals[j - off]?).isSome) :
    ∃ v, ∀ f h, nullLoop inp off spec n i (f, h) =
      .ok (f && !v && decide (n = 0 ∨ i + n ≤ spec.natts), h || v) := by
  induction n generalizing i with
  | zero => exact ⟨false, by intro f h; simp [nullLoop]⟩
  | succ n ih =>
    obtain ⟨c, hc⟩ := Option.isSome_iff_exists.1 (hv i (by omega) (by omega))
    obtain ⟨v, hv'⟩ := ih (i + 1) (fun j h1 h2 => hv j (by omega) (by omega))
    refine ⟨c.null || v, ?_⟩
    intro f h
    simp only [nullLoop, hc, R.get, R.bind]
    cases hn : c.null with
    | true => simp [hv']
    | false =>
      by_cases hi : i ≥ spec.natts
      · have h1 : ¬ (i + (n + 1) ≤ spec.natts) := by omega
        simp [hv', hi, h1]
      · have h2 : (n = 0 ∨ i + 1 + n ≤ spec.natts) ↔ (n + 1 = 0 ∨ i + (n + 1) ≤ spec.natts) := by omega
        simp only [hi, hv', Bool.false_eq_true, if_false, Bool.false_or]
        rw [decide_eq_decide.2 h2]

theorem formats_version (inp : Input) (h : inp.OK) (spec : Spec) :
    ∃ v, ∀ version, formats { inp with version := version } inp.ctidOff spec inp.row.length =
      .ok (version == 0 && !v && decide (inp.row.length - inp.ctidOff = 0 ∨ inp.row.length ≤ spec.natts), v) := by
  have hlen := row_vals inp h
  obtain ⟨v, hv⟩ := nullLoop_closed inp inp.ctidOff spec (inp.row.length - inp.ctidOff) inp.ctidOff (by
    intro j h1 h2
    rw [List.getElem?_eq_getElem (by omega)]
    rfl)
  refine ⟨v, ?_⟩
  intro version
  have h1 : ∀ n i s, nullLoop { inp with version := version } inp.ctidOff spec n i s = nullLoop inp inp.ctidOff spec n i s := by
    intro n
    induction n with
    | zero => intro i s; rfl
    | succ n ih =>
      intro i s
      simp only [nullLoop, ih]
  unfold formats
  rw [h1, hv]
  simp only [Bool.false_or]
  rw [show inp.ctidOff + (inp.row.length - inp.ctidOff) = inp.row.length by omega]

/-! ## Writing -/

theorem rowOK_tail (a : Attr) (as : List Attr) (c : Col) (cs : List Col) (h : RowOK (a :: as) (c :: cs)) :
    ColOK a c ∧ RowOK as cs :=
  ⟨h.2 0 a c rfl rfl, by simpa using h.1, fun i a' c' h1 h2 => h.2 (i + 1) a' c' h1 h2⟩

theorem sizeLoop_enc (inp : Input) (h : inp.OK) (as : List Attr) (ha : ∀ a ∈ as, AttrOK a) (cs : List Col)
    (i off : Nat) (hr : RowOK as cs) (hrow : ∀ j c, cs[j]? = some c → inp.row[i + j]? = some c) :
    sizeLoop inp as i off = .ok (off + (encRow as cs off).length) := by
  induction as generalizing cs i off with
  | nil =>
    cases cs with
    | nil => rfl
    | cons c cs => simp [RowOK] at hr
  | cons a as ih =>
    cases cs with
    | nil => simp [RowOK] at hr
    | cons c cs =>
      obtain ⟨hc, hr'⟩ := rowOK_tail a as c cs hr
      have h1 := col_row inp h i c (by simpa using hrow 0 c rfl)
      have h2 := sizeCol_enc a (ha a (by simp)) c hc off
      have h3 := ih (fun x hx => ha x (by simp [hx])) cs (i + 1) (off + (encCol a c off).length) hr' (by
        intro j c' hj
        have := hrow (j + 1) c' hj
        rw [show i + 1 + j = i + (j + 1) by omega]
        exact this)
      simp only [sizeLoop, h1, R.bind, h2, h3, encRow, List.length_append]
      congr 1
      omega

theorem fillLoop_enc (inp : Input) (h : inp.OK) (hasnull : Bool) (as : List Attr)
    (ha : ∀ a ∈ as, AttrOK a) (cs : List Col) (i k : Nat) (pre : List Nat) (bits : Bits) (hr : RowOK as cs)
    (hrow : ∀ j c, cs[j]? = some c → inp.row[i + j]? = some c)
    (hn : ∀ c ∈ cs, c.null = true → hasnull = true) (hk : (encRow as cs pre.length).length ≤ k) :
    fillLoop inp hasnull as i ⟨pre.length, pre ++ List.replicate k 0⟩ bits =
      .ok (⟨pre.length + (encRow as cs pre.length).length,
        pre ++ encRow as cs pre.length ++ List.replicate (k - (encRow as cs pre.length).length) 0⟩,
        if hasnull then bitsOf (cs.map (·.null)) bits else bits) := by
  induction as generalizing cs i k pre bits with
  | nil =>
    cases cs with
    | nil => simp [fillLoop, encRow, bitsOf]
    | cons c cs => simp [RowOK] at hr
  | cons a as ih =>
    cases cs with
    | nil => simp [RowOK] at hr
    | cons c cs =>
      obtain ⟨hc, hr'⟩ := rowOK_tail a as c cs hr
      have h1 := col_row inp h i c (by simpa using hrow 0 c rfl)
      rw [← ctidOff_fill inp h] at h1
      simp only [encRow, List.length_append] at hk
      have h2 := fillCol_enc hasnull a (ha a (by simp)) c hc (hn c (by simp)) pre k bits (by omega)
      have hpl : (pre ++ encCol a c pre.length).length = pre.length + (encCol a c pre.length).length := by
        simp
      have h3 := ih (fun x hx => ha x (by simp [hx])) cs (i + 1) (k - (encCol a c pre.length).length)
        (pre ++ encCol a c pre.length) (if hasnull then bits.step c.null else bits) hr' (by
          intro j c' hj
          have := hrow (j + 1) c' hj
          rw [show i + 1 + j = i + (j + 1) by omega]
          exact this) (fun x hx => hn x (by simp [hx])) (by rw [hpl]; omega)
      rw [hpl] at h3
      simp only [fillLoop, h1, R.bind, h2, h3, encRow]
      refine congrArg R.ok (Prod.ext ?_ ?_)
      · simp only [W.mk.injEq, List.length_append, List.append_assoc]
        refine ⟨by omega, ?_⟩
        rw [show k - (encCol a c pre.length).length - (encRow as cs (pre.length + (encCol a c pre.length).length)).length
          = k - ((encCol a c pre.length).length + (encRow as cs (pre.length + (encCol a c pre.length).length)).length)
          by omega]
      · cases hasnull <;> simp [bitsOf]

/-- The bytes between the header and the data. -/
def bitmapSize (natts : Nat) (hasnull : Bool) : Nat := if hasnull then maxAlign (bitmapLen natts) else 0

/-- The bytes of a tuple. -/
def rowSize (desc : List Attr) (row : List Col) (fixed hasnull : Bool) : Nat :=
  (if fixed then 0 else HEADER + bitmapSize desc.length hasnull) + (encRow desc row 0).length

/-- The tuple formed for a row. -/
def rowTuple (desc : List Attr) (row : List Col) (version : Nat) (fixed hasnull : Bool) : Tuple :=
  if fixed then ⟨true, ⟨false, 0, 0, 0⟩, encRow desc row 0⟩
  else ⟨false, ⟨hasnull, rowSize desc row false hasnull % 32768, desc.length % 65536, version⟩,
    (if hasnull then pad (bitsOf (row.map (·.null)) ⟨[], 128⟩).rev.reverse (maxAlign (bitmapLen desc.length))
      else []) ++ encRow desc row 0⟩

/-- Forming a row: the size computed is the size used, and the tuple is the layout above. -/
theorem form_row (desc : List Attr) (ha : ∀ a ∈ desc, AttrOK a) (inp : Input) (h : inp.OK) (spec : Spec)
    (hr : RowOK desc inp.row) (hs : spec.natts ≤ desc.length) (hid : inp.ctidOff ≤ spec.natts) :
    ∃ fixed hasnull, newTupleSize desc spec inp = .ok (rowSize desc inp.row fixed hasnull) ∧
      fill desc spec inp (rowSize desc inp.row fixed hasnull) =
        .ok (rowTuple desc inp.row inp.version fixed hasnull, rowSize desc inp.row fixed hasnull) ∧
      (fixed = true → hasnull = false ∧ spec.natts = desc.length ∧ inp.version = 0) ∧
      (∀ (i : Nat) c, inp.row[i]? = some c → c.null = true → hasnull = true) ∧
      formats inp inp.ctidOff spec desc.length = .ok (fixed, hasnull) := by
  obtain ⟨f, hn, hf, hnull, hfix⟩ := formats_spec inp h spec
  have hf' := hf
  rw [← ctidOff_fill inp h, hr.1] at hf'
  rw [hr.1] at hf
  refine ⟨f, hn, ?_, ?_, ?_, hnull, hf⟩
  · have hsz := sizeLoop_enc inp h desc ha inp.row 0 0 hr (by simp)
    have hd : (if f = true then desc.take spec.natts else desc) = desc := by
      cases f with
      | false => simp
      | true =>
        have hh := hfix rfl
        have : spec.natts = desc.length := by
          rcases hh.2.2.2 with e | e <;> rw [hr.1] at e <;> omega
        simp [this]
    simp only [newTupleSize, hf, R.bind, hd, hsz, Nat.zero_add]
    simp only [rowSize, bitmapSize]
  · have hmem : ∀ c ∈ inp.row, c.null = true → hn = true := by
      intro c hc hcn
      obtain ⟨i, hi, he⟩ := List.getElem_of_mem hc
      exact hnull i c (by rw [← he]; exact List.getElem?_eq_getElem hi) hcn
    cases f with
    | true =>
      have hh := hfix rfl
      have hsn : spec.natts = desc.length := by
        rcases hh.2.2.2 with e | e <;> rw [hr.1] at e <;> omega
      have hfl := fillLoop_enc inp h false desc ha inp.row 0 (encRow desc inp.row 0).length [] ⟨[], 0⟩ hr
        (by simp) (by intro c hc hcn; have := hmem c hc hcn; rw [hh.1] at this; cases this) (Nat.le_refl _)
      simp only [List.length_nil, List.nil_append, Nat.zero_add, Nat.sub_self, List.replicate_zero,
        List.append_nil, Bool.false_eq_true, if_false] at hfl
      simp only [fill, hf', R.bind, if_true, rowSize, Nat.zero_add, hsn, List.take_length, hfl]
      simp [rowTuple]
    | false =>
      have hfl := fillLoop_enc inp h hn desc ha inp.row 0 (encRow desc inp.row 0).length [] ⟨[], 128⟩ hr
        (by simp) hmem (Nat.le_refl _)
      simp only [List.length_nil, List.nil_append, Nat.zero_add, Nat.sub_self, List.replicate_zero,
        List.append_nil] at hfl
      have hsz : rowSize desc inp.row false hn - HEADER - bitmapSize desc.length hn =
          (encRow desc inp.row 0).length := by
        simp only [rowSize, Bool.false_eq_true, if_false]
        omega
      have hbm : (if hn = true then maxAlign (bitmapLen desc.length) else 0) = bitmapSize desc.length hn := rfl
      have hnl : ¬ rowSize desc inp.row false hn < HEADER + bitmapSize desc.length hn := by
        simp only [rowSize, Bool.false_eq_true, if_false]
        omega
      simp only [fill, hf', R.bind, Bool.false_eq_true, if_false, hbm, if_neg hnl, hsz, hfl]
      refine congrArg R.ok (Prod.ext ?_ ?_)
      · cases hn <;> simp [rowTuple, bitmapSize]
      · simp [rowSize]
  · intro hft
    have hh := hfix hft
    refine ⟨hh.1, ?_, hh.2.1⟩
    rcases hh.2.2.2 with e | e <;> rw [hr.1] at e <;> omega

end Verif.Tuple
