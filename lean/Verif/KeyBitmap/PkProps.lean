import Verif.KeyBitmap.PkRow
import Verif.KeyBitmap.Props

/-!
# C39, C40 and C41: primary keys in bitmaps
-/

namespace Verif.KeyBitmap

/-! ## Specification of the 64-bit mode -/

/-- The values of the types of the 64-bit mode. -/
def Typed64 : KeyTy → KeyVal → Prop
  | .int4, .int v => -2147483648 ≤ v ∧ v < 2147483648
  | .int8, .int v => -9223372036854775808 ≤ v ∧ v < 9223372036854775808
  | .tid, .tid b o => b < 4294967296 ∧ o < 65536
  | _, _ => False

/-- Order of numbers; order of tuple identifiers by block and offset. -/
def lt64 : KeyVal → KeyVal → Prop
  | .int a, .int b => a < b
  | .tid b o, .tid b' o' => b < b' ∨ (b = b' ∧ o < o')
  | _, _ => False

/-- At most. -/
def le64 (a b : KeyVal) : Prop := lt64 a b ∨ a = b

/-- Tuple identifiers whose block number fits in 16 bits; any number. -/
def Small : KeyVal → Prop
  | .int _ => True
  | .tid b _ => b < 65536

/-! ## C39 -/

theorem code64_int {ty : KeyTy} {v : Int} (h : Typed64 ty (.int v)) :
    valGetUint64 (.int v) = (v + 9223372036854775808).toNat := by
  apply int64ToUint64_eq
  all_goals cases ty <;> simp only [Typed64] at h <;> omega

theorem code64_tid {b o : Nat} (hb : b < 65536) (ho : o < 65536) :
    valGetUint64 (.tid b o) = b * 65536 + o := by
  simp only [valGetUint64, Nat.shiftLeft_eq, Nat.reducePow]
  omega

/-- C39, 64-bit mode, the part that holds: for the values of one of the three types,
with block numbers below 65536, codes are ordered as the values and decoding gives the
value back.

Missing: tuple identifiers with larger block numbers, for which the statement is false
(`C39_violated`). -/
theorem C39_codes_partial (ty : KeyTy) (x y : KeyVal) (hx : Typed64 ty x) (hy : Typed64 ty y)
    (sx : Small x) (sy : Small y) :
    U64 (valGetUint64 x) ∧ (lt64 x y ↔ valGetUint64 x < valGetUint64 y) ∧
      (x = y ↔ valGetUint64 x = valGetUint64 y) ∧ uint64GetVal (valGetUint64 x) ty = x := by
  cases x with
  | int v =>
    cases y with
    | tid b o => cases ty <;> simp [Typed64] at hx hy
    | int w =>
      rw [code64_int hx, code64_int hy]
      have hv : -9223372036854775808 ≤ v ∧ v < 9223372036854775808 := by
        cases ty <;> simp only [Typed64] at hx <;> omega
      have hw : -9223372036854775808 ≤ w ∧ w < 9223372036854775808 := by
        cases ty <;> simp only [Typed64] at hy <;> omega
      refine ⟨by unfold U64; omega, ?_, ?_, ?_⟩
      · show v < w ↔ _
        omega
      · rw [KeyVal.int.injEq]; omega
      · have hd := uint64ToInt64_eq (v + 9223372036854775808).toNat (by omega)
        cases ty with
        | int4 =>
          simp only [uint64GetVal, hd]
          simp only [Typed64] at hx
          unfold i32
          congr 1
          split <;> omega
        | int8 =>
          simp only [uint64GetVal, hd]
          congr 1
          omega
        | tid => exact absurd hx id
  | tid b o =>
    cases ty <;> simp only [Typed64] at hx
    cases y with
    | int w => exact absurd hy id
    | tid b' o' =>
      simp only [Typed64] at hy
      simp only [Small] at sx sy
      rw [code64_tid sx hx.2, code64_tid sy hy.2]
      refine ⟨by unfold U64; omega, ?_, ?_, ?_⟩
      · show (b < b' ∨ (b = b' ∧ o < o')) ↔ _
        omega
      · rw [KeyVal.tid.injEq]; omega
      · simp only [uint64GetVal, Nat.shiftRight_eq_div_pow, Nat.reducePow]
        rw [show (65535 : Nat) = 2 ^ 16 - 1 from rfl, Nat.and_two_pow_sub_one_eq_mod]
        congr 1 <;> omega

/-- C39 for the integer types, without restriction. -/
theorem C39_codes_int (ty : KeyTy) (v w : Int) (hx : Typed64 ty (.int v)) (hy : Typed64 ty (.int w)) :
    U64 (valGetUint64 (.int v)) ∧ (v < w ↔ valGetUint64 (.int v) < valGetUint64 (.int w)) ∧
      (v = w ↔ valGetUint64 (.int v) = valGetUint64 (.int w)) ∧
      uint64GetVal (valGetUint64 (.int v)) ty = .int v := by
  have h := C39_codes_partial ty _ _ hx hy trivial trivial
  rw [KeyVal.int.injEq] at h
  exact h

example : Typed64 .int8 (.int (-9223372036854775808)) ∧ Typed64 .int4 (.int (-7)) ∧
    Typed64 .tid (.tid 65535 291) ∧
    valGetUint64 (.int (-9223372036854775808)) = 0 ∧
    valGetUint64 (.int 9223372036854775807) = 18446744073709551615 ∧
    uint64GetVal (valGetUint64 (.int (-7))) .int4 = .int (-7) := by
  refine ⟨by simp [Typed64], by simp [Typed64], by simp [Typed64], by decide, by decide, by decide⟩

/-- C39 is violated: two tuple identifiers of a table without a primary key get the
same code, a greater one gets a smaller code, and decoding gives a different one. -/
theorem C39_violated : ∃ x y z : KeyVal, Typed64 .tid x ∧ Typed64 .tid y ∧ Typed64 .tid z ∧
    x ≠ y ∧ valGetUint64 x = valGetUint64 y ∧
    lt64 z y ∧ valGetUint64 y < valGetUint64 z ∧
    uint64GetVal (valGetUint64 y) .tid ≠ y :=
  ⟨.tid 0 1, .tid 65536 1, .tid 5 1, by simp [Typed64], by simp [Typed64], by simp [Typed64],
    by decide, by decide, by simp [lt64], by decide, by decide⟩

/-- C39, fixed-key mode.  For every list of column types the mode accepts, and any two
rows of these types, the keys exist, are 24 bytes, compare as bytes as the rows
compare, are equal exactly when the rows are equal, and decoding gives the `Datum`s of a row
equal to the encoded one. -/
theorem C39_keys (types : List Nat) (h : fixedMode types = true) :
    ∃ ts : List PgType, types = ts.map PgType.number ∧
    ∀ (ds es : List Datum) (xs ys : List V), RowStored ts ds xs → RowTyped ts xs →
      RowStored ts es ys → RowTyped ts ys →
      ∃ k l, encodeKey (ds.zip types) = .ok k ∧ encodeKey (es.zip types) = .ok l ∧
        IsKey k ∧ IsKey l ∧ (rowLt ts xs ys ↔ memLt k l = true) ∧ (rowEq ts xs ys ↔ k = l) ∧
        ∃ ds' xs', decodeKey types k = .ok ds' ∧ RowExact ts ds' xs' ∧ RowTyped ts xs' ∧
          rowEq ts xs xs' := by
  obtain ⟨ts, rfl, hl⟩ := fixedMode_types h
  refine ⟨ts, rfl, ?_⟩
  intro ds es xs ys hd hx he hy
  obtain ⟨k, k1, k2, k3, k4⟩ := encodeKey_spec hd hx hl
  obtain ⟨l, l1, l2, l3, l4⟩ := encodeKey_spec he hy hl
  have hkey : ∀ b : List Nat, b.length = rowSize ts → (∀ x ∈ b, x < 256) →
      IsKey (List.replicate (24 - rowSize ts) 0 ++ b) := by
    intro b h1 h2
    refine ⟨by rw [List.length_append, List.length_replicate]; omega, ?_⟩
    intro x hx
    rcases List.mem_append.1 hx with hx | hx
    · rw [(List.mem_replicate.1 hx).2]; omega
    · exact h2 x hx
  have hval : ∀ b : List Nat, value (List.replicate (24 - rowSize ts) 0 ++ b) = value b := by
    intro b; rw [value_append, value_zeros]; omega
  have hk := hkey k k2 k3
  have hl' := hkey l l2 l3
  refine ⟨_, _, k1, l1, hk, hl', ?_, ?_, ?_⟩
  · rw [key_lt hk hl', hval, hval, k4, l4]
    exact rowCode_lt hx hy
  · rw [rowCode_eq hx hy, ← k4, ← l4]
    constructor
    · intro e
      rw [value_inj (by rw [k2, l2]) k3 l3 e]
    · intro e
      rw [← hval k, e, hval l]
  · obtain ⟨ds', xs', g1, g2, g3, g4⟩ :=
      decodeCols_spec (List.replicate (24 - rowSize ts) 0) k hx k2 k3 k4
    refine ⟨ds', xs', ?_, g2, g3, g4⟩
    unfold decodeKey
    rw [keyLen_eq, ← g1, List.length_replicate]
    congr 1
    simp only [FIXED_BYTES]
    omega

/-- A key with a negative number, a negative float and an address of a network card. -/
def exRow : List V := [.int (-5), .float 0xbff0000000000000, .bytes [1, 2, 3, 4, 5, 6]]

/-- Its columns. -/
def exTypes : List PgType := [.int4, .float8, .macaddr]

/-- Its `Datum`s. -/
def exDatums : List Datum :=
  [.num 18446744073709551611, .num 0xbff0000000000000, .ptr [1, 2, 3, 4, 5, 6]]

theorem exRow_ok : fixedMode (exTypes.map PgType.number) = true ∧ RowStored exTypes exDatums exRow ∧
    RowTyped exTypes exRow ∧
    encodeKey (exDatums.zip (exTypes.map PgType.number)) =
      .ok [0, 0, 0, 0, 0, 0, 0x7f, 0xff, 0xff, 0xfb, 0x40, 0x0f, 0xff, 0xff, 0xff, 0xff, 0xff, 0xff,
        1, 2, 3, 4, 5, 6] := by
  refine ⟨by decide, ?_, ?_, by decide⟩
  · simp [exTypes, exDatums, exRow, RowStored, Stored, PgType.size]
  · simp [exTypes, exRow, RowTyped, HasType, PgType.size, PgType.shape]

/-! ## C40 -/

/-- The values of the columns of a row of the table: fields over the same column of the
table have the same value and type. -/
structure RowOf (val : Field → Datum) (fields : List Field) : Prop where
  val_eq : ∀ f ∈ fields, ∀ g ∈ fields, f.attnum.isSome = true → f.attnum = g.attnum → val f = val g
  typ_eq : ∀ f ∈ fields, ∀ g ∈ fields, f.attnum.isSome = true → f.attnum = g.attnum → f.typ = g.typ

theorem findExisting_some {leaf : List Field} {f : Field} {i : Nat}
    (h : findExisting leaf f = some i) :
    ∃ g, leaf[i]? = some g ∧ f.attnum.isSome = true ∧ f.attnum = g.attnum := by
  unfold findExisting at h
  rw [List.findIdx?_eq_some_iff_getElem] at h
  obtain ⟨hi, hp, _⟩ := h
  simp only [Bool.and_eq_true, beq_iff_eq] at hp
  exact ⟨leaf[i], List.getElem?_eq_getElem hi, hp.1.1, hp.1.2⟩

/-- The positions lead to fields with the values of the primary key. -/
theorem addPrimary_spec (val : Field → Datum) (all : List Field) (hr : RowOf val all) :
    ∀ (pk leaf : List Field) (atts : List Nat) (done : List Field),
      (∀ f ∈ pk, f ∈ all) → (∀ f ∈ leaf, f ∈ all) → atts.length = done.length →
      (∀ i < atts.length, ∃ a d g, atts[i]? = some a ∧ done[i]? = some d ∧ leaf[a - 1]? = some g ∧
        val g = val d) →
      let r := addPrimary leaf atts pk
      (∀ f ∈ r.1, f ∈ all) ∧ (∃ more, r.1 = leaf ++ more) ∧
      r.2.length = (done ++ pk).length ∧
      ∀ i < r.2.length, ∃ a d g, r.2[i]? = some a ∧ (done ++ pk)[i]? = some d ∧
        r.1[a - 1]? = some g ∧ val g = val d := by
  intro pk
  induction pk with
  | nil =>
    intro leaf atts done _ hl hlen h
    simp only [addPrimary, List.append_nil]
    exact ⟨hl, ⟨[], by simp⟩, hlen, h⟩
  | cons f pk ih =>
    intro leaf atts done hp hl hlen h
    rw [addPrimary]
    cases hf : findExisting leaf f with
    | some j =>
      obtain ⟨g, hg, hs, he⟩ := findExisting_some hf
      have := ih leaf (atts ++ [j + 1]) (done ++ [f]) (fun f hf => hp f (List.mem_cons_of_mem _ hf)) hl
        (by simp [hlen]) (by
          intro i hi
          rw [List.length_append, List.length_singleton] at hi
          rcases Nat.lt_or_ge i atts.length with c | c
          · obtain ⟨a, d, g', h1, h2, h3, h4⟩ := h i c
            refine ⟨a, d, g', ?_, ?_, h3, h4⟩
            · rw [List.getElem?_append_left c]; exact h1
            · rw [List.getElem?_append_left (by omega)]; exact h2
          · have hi' : i = atts.length := by omega
            refine ⟨j + 1, f, g, ?_, ?_, by simpa using hg, ?_⟩
            · rw [hi', List.getElem?_append_right (Nat.le_refl _)]; simp
            · rw [hi', hlen, List.getElem?_append_right (Nat.le_refl _)]; simp
            · exact (hr.val_eq f (hp f (List.mem_cons_self ..)) g (hl g (List.mem_of_getElem? hg)) hs he).symm)
      simpa using this
    | none =>
      have := ih (leaf ++ [f]) (atts ++ [leaf.length + 1]) (done ++ [f])
        (fun f hf => hp f (List.mem_cons_of_mem _ hf))
        (by
          intro g hg
          rcases List.mem_append.1 hg with hg | hg
          · exact hl g hg
          · rw [List.mem_singleton.1 hg]; exact hp f (List.mem_cons_self ..))
        (by simp [hlen]) (by
          intro i hi
          rw [List.length_append, List.length_singleton] at hi
          rcases Nat.lt_or_ge i atts.length with c | c
          · obtain ⟨a, d, g', h1, h2, h3, h4⟩ := h i c
            refine ⟨a, d, g', ?_, ?_, ?_, h4⟩
            · rw [List.getElem?_append_left c]; exact h1
            · rw [List.getElem?_append_left (by omega)]; exact h2
            · rw [List.getElem?_append_left (List.getElem?_eq_some_iff.1 h3).1]; exact h3
          · have hi' : i = atts.length := by omega
            refine ⟨leaf.length + 1, f, f, ?_, ?_, ?_, rfl⟩
            · rw [hi', List.getElem?_append_right (Nat.le_refl _)]; simp
            · rw [hi', hlen, List.getElem?_append_right (Nat.le_refl _)]; simp
            · simp)
      obtain ⟨t1, ⟨more, t2⟩, t3, t4⟩ := this
      refine ⟨t1, ⟨f :: more, by rw [t2]; simp⟩, by simpa using t3, ?_⟩
      simpa using t4

theorem addFields_mem (fs : List Field) : ∀ leaf : List Field, ∀ g ∈ addFields leaf fs,
    g ∈ leaf ∨ g ∈ fs := by
  induction fs with
  | nil => intro leaf g hg; exact Or.inl hg
  | cons f fs ih =>
    intro leaf g hg
    rw [addFields] at hg
    cases hf : findExisting leaf f with
    | some i =>
      rw [hf] at hg
      rcases ih leaf g hg with h | h
      · exact Or.inl h
      · exact Or.inr (List.mem_cons_of_mem _ h)
    | none =>
      rw [hf] at hg
      rcases ih _ g hg with h | h
      · rcases List.mem_append.1 h with h | h
        · exact Or.inl h
        · rw [List.mem_singleton.1 h]; exact Or.inr (List.mem_cons_self ..)
      · exact Or.inr (List.mem_cons_of_mem _ h)

theorem mapM_zip {α : Type} (n : Nat) (f : Nat → Option α) : ∀ l : List α, l.length = n →
    (∀ i < n, f i = l[i]?) → (List.range n).mapM f = some l := by
  induction n with
  | zero =>
    intro l hl _
    rw [List.length_eq_zero_iff.1 hl]; rfl
  | succ n ih =>
    intro l hl h
    rw [List.range_succ, List.mapM_append]
    have h1 := ih (l.take n) (by rw [List.length_take]; omega) (by
      intro i hi
      rw [h i (by omega), List.getElem?_take_of_lt hi])
    rw [h1]
    have h2 := h n (by omega)
    rw [List.getElem?_eq_getElem (by omega)] at h2
    have h3 : List.mapM f [n] = some [l[n]] := by
      rw [List.mapM_cons, h2]; rfl
    rw [h3]
    show some (l.take n ++ [l[n]]) = some l
    congr 1
    rw [List.take_append_getElem, List.take_of_length_le (by omega)]

/-- C40, the part that holds: if the last columns of the leaf tuple of the secondary
index have the types of the primary key columns in order, the recorded key is the key
of the row.

Missing: secondary indexes that share columns with the primary key so that this is not
so; for these the statement is false (`C40_violated`, `C40_undefined`). -/
theorem C40_same_key_partial (ix pk : List Field) (val : Field → Datum)
    (hr : RowOf val (ix ++ pk))
    (ht : ∀ i, i < pk.length →
      ((secondary ix pk).1[(secondary ix pk).1.length - pk.length + i]?).map (·.typ) =
        (pk[i]?).map (·.typ)) :
    encodeSecondary ix pk ((secondary ix pk).1.map val) = encodePrimary pk (pk.map val) := by
  have hs := addPrimary_spec val (ix ++ pk) hr pk (addFields [] ix) [] []
    (fun f hf => List.mem_append_right _ hf)
    (by
      intro f hf
      rcases addFields_mem ix [] f hf with h | h
      · cases h
      · exact List.mem_append_left _ h)
    rfl (by intro i hi; cases hi)
  obtain ⟨_, _, hlen, h⟩ := hs
  simp only [List.nil_append] at hlen h
  have hcols : leafCols (secondary ix pk).1 (secondary ix pk).2 ((secondary ix pk).1.map val) =
      some ((pk.map val).zip (pk.map (·.typ))) := by
    unfold leafCols
    apply mapM_zip
    · simp; exact hlen.symm
    · intro i hi
      have hi' : i < pk.length := hlen ▸ hi
      obtain ⟨a, d, g, h1, h2, h3, h4⟩ := h i hi
      have h5 := ht i hi'
      have e1 : (secondary ix pk).2[i]? = some a := h1
      have e2 : (secondary ix pk).1[a - 1]? = some g := h3
      have e3 : (secondary ix pk).2.length = pk.length := hlen
      rw [h2] at h5
      rw [e1, e3]
      simp only [Option.bind_eq_bind, Option.bind_some, List.getElem?_map, e2, Option.map_some]
      have h6 : ((pk.map val).zip (pk.map (·.typ)))[i]? = some (val d, d.typ) := by
        rw [List.getElem?_zip_eq_some, List.getElem?_map, List.getElem?_map, h2]
        exact ⟨rfl, rfl⟩
      rw [h6]
      cases hq : (secondary ix pk).1[(secondary ix pk).1.length - pk.length + i]? with
      | none => rw [hq] at h5; cases h5
      | some q =>
        rw [hq] at h5
        simp only [Option.map_some, Option.some.injEq] at h5
        simp [h4, h5]
  unfold encodeSecondary encodePrimary
  rw [hcols]

/-- The columns of the primary key that the secondary index does not have are added in
order. -/
theorem addPrimary_fresh (pk : List Field) : ∀ (leaf : List Field) (atts : List Nat),
    (∀ f ∈ pk, ∀ g ∈ leaf, f.attnum.isSome = true → f.attnum ≠ g.attnum) →
    pk.Pairwise (fun f g => f.attnum.isSome = true → f.attnum ≠ g.attnum) →
    (addPrimary leaf atts pk).1 = leaf ++ pk := by
  induction pk with
  | nil => intro leaf atts _ _; simp [addPrimary]
  | cons f pk ih =>
    intro leaf atts h1 h2
    rw [addPrimary]
    have hp := List.pairwise_cons.1 h2
    cases hf : findExisting leaf f with
    | some i =>
      obtain ⟨g, hg, hs, he⟩ := findExisting_some hf
      exact absurd he (h1 f (List.mem_cons_self ..) g (List.mem_of_getElem? hg) hs)
    | none =>
      simp only
      rw [ih _ _ ?_ hp.2, List.append_assoc]
      · rfl
      · intro f' hf' g hg hs
        rcases List.mem_append.1 hg with hg | hg
        · exact h1 f' (List.mem_cons_of_mem _ hf') g hg hs
        · rw [List.mem_singleton.1 hg]
          intro e
          exact hp.1 f' hf' (e ▸ hs) e.symm

/-- C40 for secondary indexes that share no column with the primary key. -/
theorem C40_disjoint_partial (ix pk : List Field) (val : Field → Datum)
    (hr : RowOf val (ix ++ pk))
    (hd : ∀ f ∈ pk, ∀ g ∈ ix, f.attnum.isSome = true → f.attnum ≠ g.attnum)
    (hp : pk.Pairwise (fun f g => f.attnum.isSome = true → f.attnum ≠ g.attnum)) :
    encodeSecondary ix pk ((secondary ix pk).1.map val) = encodePrimary pk (pk.map val) := by
  apply C40_same_key_partial ix pk val hr
  intro i hi
  have h : (secondary ix pk).1 = addFields [] ix ++ pk := by
    apply addPrimary_fresh pk _ _ _ hp
    intro f hf g hg
    rcases addFields_mem ix [] g hg with h | h
    · cases h
    · exact hd f hf g h
  rw [h, List.getElem?_append_right (by rw [List.length_append]; omega)]
  congr 2
  rw [List.length_append]
  omega

/-- The columns of the examples: `a bigint`, `b integer`, `c uuid`, `d uuid`. -/
def colA : Field := ⟨some 1, 3124, 20⟩
/-- Second column. -/
def colB : Field := ⟨some 2, 1978, 23⟩
/-- Third column. -/
def colC : Field := ⟨some 3, 2968, 2950⟩
/-- Fourth column. -/
def colD : Field := ⟨some 4, 2968, 2950⟩

/-- A row with a given first column; the others are 7 and two addresses. -/
def exVal (a : Nat) (f : Field) : Datum :=
  if f.attnum = some 1 then .num a
  else if f.attnum = some 2 then .num 7
  else .ptr (List.replicate 16 (if f.attnum = some 3 then 1 else 2))

theorem exVal_row (a : Nat) (l : List Field) (hl : ∀ f ∈ l, f ∈ [colA, colB, colC, colD]) :
    RowOf (exVal a) l where
  val_eq := by
    intro f hf g hg hs he
    unfold exVal
    rw [he]
  typ_eq := by
    intro f hf g hg hs he
    have h1 := hl f hf
    have h2 := hl g hg
    revert hs he
    revert h1 h2
    generalize f = f
    have : ∀ f ∈ [colA, colB, colC, colD], ∀ g ∈ [colA, colB, colC, colD],
        f.attnum.isSome = true → f.attnum = g.attnum → f.typ = g.typ := by decide
    intro h1 h2
    exact this f h1 g h2

set_option maxRecDepth 20000 in
example : (∀ f ∈ [colA, colB], ∀ g ∈ [colC], f.attnum.isSome = true → f.attnum ≠ g.attnum) ∧
    ([colA, colB].Pairwise (fun f g => f.attnum.isSome = true → f.attnum ≠ g.attnum)) ∧
    fixedMode ([colA, colB].map (·.typ)) = true ∧
    encodeSecondary [colC] [colA, colB] ((secondary [colC] [colA, colB]).1.map (exVal 5)) =
      .ok (List.replicate 12 0 ++ [128, 0, 0, 0, 0, 0, 0, 5, 128, 0, 0, 7]) := by decide

set_option maxRecDepth 20000 in
/-- C40 is violated: with primary key (a, b) and an index on b, the rows (1, 7) and
(4294967297, 7) have different keys in the primary tree, and the index records the same
key for both, which is the key of neither. -/
theorem C40_violated : ∃ (ix pk : List Field) (v w : Field → Datum) (k l m : List Nat),
    RowOf v (ix ++ pk) ∧ RowOf w (ix ++ pk) ∧ fixedMode (pk.map (·.typ)) = true ∧
    encodePrimary pk (pk.map v) = .ok k ∧ encodePrimary pk (pk.map w) = .ok l ∧ k ≠ l ∧
    encodeSecondary ix pk ((secondary ix pk).1.map v) = .ok m ∧
    encodeSecondary ix pk ((secondary ix pk).1.map w) = .ok m ∧ m ≠ k ∧ m ≠ l := by
  refine ⟨[colB], [colA, colB], exVal 1, exVal 4294967297,
    List.replicate 12 0 ++ [128, 0, 0, 0, 0, 0, 0, 1, 128, 0, 0, 7],
    List.replicate 12 0 ++ [128, 0, 0, 1, 0, 0, 0, 1, 128, 0, 0, 7],
    List.replicate 12 0 ++ [128, 0, 0, 1, 128, 0, 0, 0, 0, 0, 0, 7], ?_, ?_, ?_⟩
  · exact exVal_row _ _ (by decide)
  · exact exVal_row _ _ (by decide)
  · decide

set_option maxRecDepth 20000 in
/-- The same mistake leaves the buffer: with primary key (c, a) and an index on (a, d)
the key of any row is written before the beginning of the buffer. -/
theorem C40_undefined : ∃ (ix pk : List Field), fixedMode (pk.map (·.typ)) = true ∧
    ∀ a, RowOf (exVal a) (ix ++ pk) ∧
      encodeSecondary ix pk ((secondary ix pk).1.map (exVal a)) = .undef := by
  refine ⟨[colA, colD], [colC, colA], by decide, ?_⟩
  intro a
  refine ⟨exVal_row _ _ (by decide), ?_⟩
  have h : (secondary [colA, colD] [colC, colA]).1 = [colA, colD, colC] := by decide
  have h2 : (secondary [colA, colD] [colC, colA]).2 = [3, 1] := by decide
  unfold encodeSecondary
  rw [h, h2]
  have hc : leafCols [colA, colD, colC] [3, 1] ([colA, colD, colC].map (exVal a)) =
    some [(.ptr (List.replicate 16 1), 2950), (.num a, 2950)] := rfl
  rw [hc]
  rfl

/-! ## C41 -/

theorem pageWanted_spec {bm : Bm} (h : BInv bm) (low high : Option KeyVal)
    (hl : ∀ l, low = some l → U64 (valGetUint64 l)) {n : Nat} (hn : hasT bm.tree n = true)
    (h1 : ∀ l, low = some l → valGetUint64 l ≤ n)
    (h2 : ∀ x, high = some x → n < valGetUint64 x)
    (h3 : high = none → n < 18446744073709551615) :
    (pageWanted bm low high).2 = some true := by
  have key : ∀ lo hi, lo < 18446744073709551616 → lo ≤ n → n < hi →
      (rangeIsValid bm lo hi).2 = some true := by
    intro lo hi g1 g2 g3
    obtain ⟨_, _, r, hr, hiff⟩ := range_spec h (low := lo) (high := hi) g1
    rw [hr, hiff.2 ⟨n, hn, g2, g3⟩]
  unfold pageWanted
  cases low with
  | none =>
    cases high with
    | none => exact key _ _ (by decide) (Nat.zero_le n) (h3 rfl)
    | some x => exact key _ _ (by decide) (Nat.zero_le n) (h2 x rfl)
  | some l =>
    cases high with
    | none => exact key _ _ (hl l rfl) (h1 l rfl) (h3 rfl)
    | some x => exact key _ _ (hl l rfl) (h1 l rfl) (h2 x rfl)

/-- C41, 64-bit mode, the part that holds: after any program, if a key in the bitmap
belongs to a page with the given bounds, the page is not skipped.

Missing: the greatest `bigint` on a page without upper bound, for which the statement is
false (`C41_violated`), and block numbers from 65536 on (`C39_violated`). -/
theorem C41_page_partial (ops : List (Op Nat)) (hv : ∀ p ∈ ops, p.Valid U64) (a : Nat) (ty : KeyTy)
    (low high : Option KeyVal) (x : KeyVal) (hx : Typed64 ty x) (sx : Small x)
    (hl : ∀ l, low = some l → Typed64 ty l ∧ Small l ∧ le64 l x)
    (hh : ∀ h, high = some h → Typed64 ty h ∧ Small h ∧ lt64 x h)
    (hm : high = none → x ≠ .int 9223372036854775807)
    (hS : sets ops a (valGetUint64 x)) :
    (pageWanted (run ops a) low high).2 = some true := by
  have hr := run_rep ops hv
  have hcx := C39_codes_partial ty x x hx hx sx sx
  apply pageWanted_spec (hr.inv a) low high _ ((hr.mem a _).2 hS)
  · intro l e
    obtain ⟨h1, h2, h3⟩ := hl l e
    have := C39_codes_partial ty l x h1 hx h2 sx
    rcases h3 with h3 | h3
    · exact Nat.le_of_lt (this.2.1.1 h3)
    · rw [h3]; exact Nat.le_refl _
  · intro h e
    obtain ⟨h1, h2, h3⟩ := hh h e
    exact (C39_codes_partial ty x h hx h1 sx h2).2.1.1 h3
  · intro e
    have hne := hm e
    have hu := hcx.1
    unfold U64 at hu
    cases x with
    | int v =>
      rw [code64_int hx]
      have hv : -9223372036854775808 ≤ v ∧ v < 9223372036854775808 := by
        cases ty <;> simp only [Typed64] at hx <;> omega
      have : v ≠ 9223372036854775807 := fun e => hne (by rw [e])
      omega
    | tid b o =>
      cases ty <;> simp only [Typed64] at hx
      rw [code64_tid sx hx.2]
      simp only [Small] at sx
      omega
  · intro l e
    exact (C39_codes_partial ty l l (hl l e).1 (hl l e).1 (hl l e).2.1 (hl l e).2.1).1

set_option maxRecDepth 20000 in
example : sets [.insert 0 (valGetUint64 (.int 41)), .insert 0 (valGetUint64 (.int (-3)))] 0
      (valGetUint64 (.int 41)) ∧
    (pageWanted (run [.insert 0 (valGetUint64 (.int 41)), .insert 0 (valGetUint64 (.int (-3)))] 0)
      (some (.int 40)) none).2 = some true ∧
    (pageWanted (run [.insert 0 (valGetUint64 (.int 41)), .insert 0 (valGetUint64 (.int (-3)))] 0)
      (some (.int (-2))) (some (.int 41))).2 = some false := by
  refine ⟨?_, by decide, by decide⟩
  simp [sets, change]

set_option maxRecDepth 20000 in
/-- C41 is violated: the bitmap holds the greatest `bigint`, the last page of the tree
holds all keys from 0 on, and the page is skipped. -/
theorem C41_violated : ∃ (ops : List (Op Nat)) (x l : KeyVal), (∀ p ∈ ops, p.Valid U64) ∧
    Typed64 .int8 x ∧ Typed64 .int8 l ∧ le64 l x ∧ sets ops 0 (valGetUint64 x) ∧
    (pageWanted (run ops 0) (some l) none).2 = some false := by
  refine ⟨[.insert 0 18446744073709551615], .int 9223372036854775807, .int 0, ?_, ?_, ?_, ?_, ?_, ?_⟩
  · intro p hp
    rw [List.mem_singleton.1 hp]
    simp [Op.Valid, U64]
  · simp [Typed64]
  · simp [Typed64]
  · exact Or.inl (by simp [lt64])
  · have : valGetUint64 (.int 9223372036854775807) = 18446744073709551615 := by decide
    rw [this]
    simp [sets, change]
  · decide

theorem zeros_isKey : IsKey (List.replicate FIXED_BYTES 0) := by unfold IsKey; decide

theorem ones_isKey : IsKey (List.replicate FIXED_BYTES 255) := by unfold IsKey; decide

set_option maxRecDepth 20000 in
theorem ones_value : value (List.replicate FIXED_BYTES 255) = 256 ^ 24 - 1 := by decide

/-- C41, fixed-key mode, the part that holds.

Missing: the key that consists of ones only on a page without upper bound, for which
the statement is false (`C41_violated_fixed`). -/
theorem C41_page_fixed_partial (ops : List (Op (List Nat))) (hv : ∀ p ∈ ops, p.Valid IsKey) (a : Nat)
    (low high : Option (List Nat)) (x : List Nat)
    (hl : ∀ l, low = some l → IsKey l ∧ (l = x ∨ memLt l x = true))
    (hh : ∀ h, high = some h → IsKey h ∧ memLt x h = true)
    (hm : high = none → x ≠ List.replicate 24 255)
    (hx : IsKey x) (hS : sets ops a x) :
    (pageWantedF (runF ops a) low high).2 = some true := by
  have hr := runF_rep ops hv
  have key : ∀ lo hi, IsKey lo → IsKey hi → value lo ≤ value x → value x < value hi →
      (rangeIsValidF (runF ops a) lo hi).2 = some true := by
    intro lo hi k1 k2 g1 g2
    obtain ⟨_, _, r, hr', hiff⟩ := rangeF_spec (hr.inv a) k1 k2
    rw [hr', hiff.2 ⟨x, (hr.mem a x).2 hS, g1, g2⟩]
  have low0 : value (List.replicate FIXED_BYTES 0) ≤ value x := by
    rw [value_zeros]; exact Nat.zero_le _
  have low1 : ∀ l, low = some l → value l ≤ value x := by
    intro l e
    obtain ⟨h1, h2⟩ := hl l e
    rcases h2 with h2 | h2
    · rw [h2]; exact Nat.le_refl _
    · exact Nat.le_of_lt ((key_lt h1 hx).1 h2)
  have high0 : high = none → value x < value (List.replicate FIXED_BYTES 255) := by
    intro e
    have h1 := value_lt x hx.2
    rw [hx.1] at h1
    have h2 : value x ≠ value (List.replicate FIXED_BYTES 255) := by
      intro e'
      exact hm e (value_inj (by rw [hx.1]; rfl) hx.2 ones_isKey.2 e')
    rw [ones_value] at h2 ⊢
    omega
  have high1 : ∀ h, high = some h → value x < value h := fun h e =>
    (key_lt hx (hh h e).1).1 (hh h e).2
  unfold pageWantedF
  cases low with
  | none =>
    cases high with
    | none => exact key _ _ zeros_isKey ones_isKey low0 (high0 rfl)
    | some h => exact key _ _ zeros_isKey (hh h rfl).1 low0 (high1 h rfl)
  | some l =>
    cases high with
    | none => exact key _ _ (hl l rfl).1 ones_isKey (low1 l rfl) (high0 rfl)
    | some h => exact key _ _ (hl l rfl).1 (hh h rfl).1 (low1 l rfl) (high1 h rfl)

set_option maxRecDepth 20000 in
example : (pageWantedF (runF exOpsF 2) (some (exKey 8)) (some (exKey 201))).2 = some true ∧
    (pageWantedF (runF exOpsF 2) (some (exKey 201)) none).2 = some false ∧
    sets exOpsF 2 (exKey 200) := by
  refine ⟨by decide, by decide, ?_⟩
  simp [exOpsF, sets, change]

set_option maxRecDepth 20000 in
/-- C41 is violated in fixed-key mode too: the key of the greatest values of three
`bigint` columns is missed. -/
theorem C41_violated_fixed : ∃ (ops : List (Op (List Nat))) (k : List Nat),
    (∀ p ∈ ops, p.Valid IsKey) ∧ IsKey k ∧ fixedMode [20, 20, 20] = true ∧
    encodeKey [(.num 9223372036854775807, 20), (.num 9223372036854775807, 20),
      (.num 9223372036854775807, 20)] = .ok k ∧ sets ops 0 k ∧
    (pageWantedF (runF ops 0) none none).2 = some false := by
  refine ⟨[.insert 0 (List.replicate 24 255)], List.replicate 24 255, ?_, ones_isKey, by decide,
    by decide, ?_, by decide⟩
  · intro p hp
    rw [List.mem_singleton.1 hp]
    exact ones_isKey
  · simp [sets, change]

/-- The next row to read, 64-bit mode: the least wanted key from the position on, or
after it. -/
def NextRight (S : Nat → Prop) (from_ : Nat → Prop) : Option Nat → Prop
  | none => ∀ n, S n → ¬ from_ n
  | some r => S r ∧ from_ r ∧ ∀ n, S n → from_ n → r ≤ n

/-- C41, 64-bit mode: the call that moves a scan forward returns the least wanted code
at or after (`inclusive`) or after the code of the position, and none only if there is
none. -/
theorem C41_next (ops : List (Op Nat)) (hv : ∀ p ∈ ops, p.Valid U64) (a : Nat)
    (pos : Option KeyVal) (inclusive : Bool) (hp : ∀ p, pos = some p → U64 (valGetUint64 p)) :
    ∃ r, (nextWanted (run ops a) pos inclusive).2 = some r ∧
      NextRight (sets ops a) (fun n => ∀ p, pos = some p →
        valGetUint64 p < n ∨ (inclusive = true ∧ valGetUint64 p = n)) r := by
  have hr := run_rep ops hv
  have key : ∀ m, U64 m → ∃ r, (getNext (run ops a) m).2 = some r ∧
      NextRight (sets ops a) (fun n => m ≤ n) r := by
    intro m hm
    obtain ⟨_, _, r, h1, h2, h3⟩ := next_spec (hr.inv a) (prev := m) hm
    refine ⟨r, h1, ?_⟩
    cases r with
    | none =>
      intro n hn
      have := h2 rfl n ((hr.mem a n).2 hn)
      omega
    | some x =>
      obtain ⟨i1, i2, i3⟩ := h3 x rfl
      exact ⟨(hr.mem a x).1 i1, i2, fun n hn => i3 n ((hr.mem a n).2 hn)⟩
  have conv : ∀ {r : Option Nat} {P Q : Nat → Prop}, (∀ n, P n ↔ Q n) →
      NextRight (sets ops a) P r → NextRight (sets ops a) Q r := by
    intro r P Q h hx
    have : P = Q := funext fun n => propext (h n)
    rw [← this]; exact hx
  unfold nextWanted
  cases pos with
  | none =>
    obtain ⟨r, h1, h2⟩ := key 0 (by unfold U64; omega)
    exact ⟨r, h1, conv (fun n => ⟨(by intro _ p hp; cases hp), fun _ => Nat.zero_le n⟩) h2⟩
  | some p =>
    have hpu := hp p rfl
    cases inclusive with
    | true =>
      obtain ⟨r, h1, h2⟩ := key _ hpu
      refine ⟨r, h1, conv (fun n => ?_) h2⟩
      constructor
      · intro h q hq
        cases hq
        simp only [true_and]
        omega
      · intro h
        have := h p rfl
        simp only [true_and] at this
        omega
    | false =>
      simp only [Bool.false_eq_true, if_false]
      by_cases hmax : valGetUint64 p = 18446744073709551615
      · rw [if_pos hmax]
        refine ⟨none, rfl, ?_⟩
        intro n hn hf
        have h1 := hf p rfl
        simp only [false_and, or_false] at h1
        have h2 := hasT_lt (hr.inv a).1 ((hr.mem a n).2 hn)
        omega
      · rw [if_neg hmax]
        unfold U64 at hpu
        obtain ⟨r, h1, h2⟩ := key (valGetUint64 p + 1) (by unfold U64; omega)
        refine ⟨r, h1, conv (fun n => ?_) h2⟩
        constructor
        · intro h q hq
          cases hq
          left; omega
        · intro h
          have := h p rfl
          simp only [false_and, or_false] at this
          omega

set_option maxRecDepth 20000 in
example : (nextWanted (run [.insert 0 (valGetUint64 (.int 41)), .insert 0 (valGetUint64 (.int (-3)))] 0)
      (some (.int (-3))) false).2 = some (some (valGetUint64 (.int 41))) ∧
    (nextWanted (run [.insert 0 (valGetUint64 (.int 41)), .insert 0 (valGetUint64 (.int (-3)))] 0)
      (some (.int (-3))) true).2 = some (some (valGetUint64 (.int (-3)))) ∧
    (nextWanted (run [.insert 0 (valGetUint64 (.int 41))] 0) (some (.int 9223372036854775807)) false).2
      = some none := by decide

/-- Adding one to the number a key stands for. -/
theorem incBytes_spec : ∀ k : List Nat, (∀ b ∈ k, b < 256) →
    (incBytes k = none → value k.reverse + 1 = 256 ^ k.length) ∧
    (∀ q, incBytes k = some q → q.length = k.length ∧ (∀ b ∈ q, b < 256) ∧
      value q.reverse = value k.reverse + 1)
  | [], _ => by simp [incBytes, value]
  | b :: k, h => by
    have ih := incBytes_spec k (fun x hx => h x (List.mem_cons_of_mem _ hx))
    have hb := h b (List.mem_cons_self ..)
    have hv : ∀ (b : Nat) (k : List Nat), value (b :: k).reverse = 256 * value k.reverse + b := by
      intro b k
      rw [List.reverse_cons, value_append]
      simp [value]
    rw [incBytes]
    by_cases hc : (b + 1) % 256 ≠ 0
    · rw [if_pos hc]
      refine ⟨(by intro e; cases e), ?_⟩
      intro q e
      cases e
      refine ⟨rfl, ?_, ?_⟩
      · intro x hx
        rcases List.mem_cons.1 hx with rfl | hx
        · omega
        · exact h x (List.mem_cons_of_mem _ hx)
      · rw [hv, hv]; omega
    · rw [if_neg hc]
      have hb' : b = 255 := by omega
      cases hi : incBytes k with
      | none =>
        refine ⟨?_, by intro q e; cases e⟩
        intro _
        rw [hv, List.length_cons, Nat.pow_succ]
        have := ih.1 hi
        omega
      | some q' =>
        refine ⟨(by intro e; cases e), ?_⟩
        intro q e
        simp only [Option.map_some, Option.some.injEq] at e
        subst e
        obtain ⟨i1, i2, i3⟩ := ih.2 q' hi
        refine ⟨by simp [i1], ?_, ?_⟩
        · intro x hx
          rcases List.mem_cons.1 hx with rfl | hx
          · omega
          · exact i2 x hx
        · rw [hv, hv, i3]; omega

/-- The next row to read, fixed-key mode. -/
def NextRightF (S : List Nat → Prop) (from_ : List Nat → Prop) : Option (List Nat) → Prop
  | none => ∀ k, S k → ¬ from_ k
  | some r => S r ∧ from_ r ∧ ∀ k, S k → from_ k → r = k ∨ memLt r k = true

/-- C41, fixed-key mode: as `C41_next`, in the order of the bytes. -/
theorem C41_next_fixed (ops : List (Op (List Nat))) (hv : ∀ p ∈ ops, p.Valid IsKey) (a : Nat)
    (pos : Option (List Nat)) (inclusive : Bool) (hp : ∀ p, pos = some p → IsKey p) :
    ∃ r, (nextWantedF (runF ops a) pos inclusive).2 = some r ∧
      NextRightF (sets ops a) (fun k => ∀ p, pos = some p →
        memLt p k = true ∨ (inclusive = true ∧ p = k)) r := by
  have hr := runF_rep ops hv
  have hkey : ∀ k, sets ops a k → IsKey k := fun k hk => hasF_key (hr.inv a) ((hr.mem a k).2 hk)
  have key : ∀ m, IsKey m → ∀ Q : List Nat → Prop,
      (∀ k, IsKey k → (value m ≤ value k ↔ Q k)) →
      ∃ r, (getNextF (runF ops a) m).2 = some r ∧ NextRightF (sets ops a) Q r := by
    intro m hm Q hQ
    obtain ⟨_, _, r, h1, h2, h3⟩ := nextF_spec (hr.inv a) (prev := m) hm
    refine ⟨r, h1, ?_⟩
    cases r with
    | none =>
      intro k hk hq
      have h4 := h2 rfl k ((hr.mem a k).2 hk)
      have h5 := (hQ k (hkey k hk)).2 hq
      omega
    | some x =>
      obtain ⟨i1, i2, i3⟩ := h3 x rfl
      have hx := (hr.mem a x).1 i1
      refine ⟨hx, (hQ x (hkey x hx)).1 i2, fun k hk hq => ?_⟩
      have h4 := i3 k ((hr.mem a k).2 hk) ((hQ k (hkey k hk)).2 hq)
      rcases Nat.lt_or_eq_of_le h4 with c | c
      · exact Or.inr ((key_lt (hkey x hx) (hkey k hk)).2 c)
      · exact Or.inl (value_inj (by rw [(hkey x hx).1, (hkey k hk).1]) (hkey x hx).2 (hkey k hk).2 c)
  unfold nextWantedF
  cases pos with
  | none =>
    apply key _ zeros_isKey
    intro k _
    have : value (List.replicate FIXED_BYTES 0) = 0 := value_zeros _
    rw [this]
    exact ⟨(by intro _ p hp; cases hp), fun _ => Nat.zero_le _⟩
  | some p =>
    have hpk := hp p rfl
    cases inclusive with
    | true =>
      apply key _ hpk
      intro k hk
      constructor
      · intro h q hq
        cases hq
        rcases Nat.lt_or_eq_of_le h with c | c
        · exact Or.inl ((key_lt hpk hk).2 c)
        · exact Or.inr ⟨rfl, value_inj (by rw [hpk.1, hk.1]) hpk.2 hk.2 c⟩
      · intro h
        rcases h p rfl with h | h
        · exact Nat.le_of_lt ((key_lt hpk hk).1 h)
        · rw [h.2]; exact Nat.le_refl _
    | false =>
      simp only [Bool.false_eq_true, if_false, false_and, or_false]
      have hinc := incBytes_spec p.reverse (fun b hb => hpk.2 b (List.mem_reverse.1 hb))
      rw [List.reverse_reverse, List.length_reverse, hpk.1] at hinc
      cases hi : incBytes p.reverse with
      | none =>
        refine ⟨none, rfl, ?_⟩
        intro k hk hf
        have h1 := (key_lt hpk (hkey k hk)).1 (hf p rfl)
        have h2 := value_lt k (hkey k hk).2
        rw [(hkey k hk).1] at h2
        have h3 := hinc.1 hi
        omega
      | some q =>
        obtain ⟨i1, i2, i3⟩ := hinc.2 q hi
        have hq : IsKey q.reverse :=
          ⟨by rw [List.length_reverse]; exact i1, fun b hb => i2 b (List.mem_reverse.1 hb)⟩
        simp only
        apply key _ hq
        intro k hk
        rw [i3]
        constructor
        · intro h p' hp'
          cases hp'
          exact (key_lt hpk hk).2 (by omega)
        · intro h
          exact (key_lt hpk hk).1 (h p rfl)

set_option maxRecDepth 20000 in
example : (nextWantedF (runF exOpsF 2) (some (exKey 7)) false).2 = some (some (exKey 200)) ∧
    (nextWantedF (runF exOpsF 2) (some (exKey 255)) false).2 = some none ∧
    incBytes (exKey 255).reverse = some ((List.replicate 22 0 ++ [1, 0]).reverse) := by decide

end Verif.KeyBitmap
