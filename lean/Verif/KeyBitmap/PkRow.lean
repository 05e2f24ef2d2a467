import Verif.KeyBitmap.PkOne

/-!
# Composite keys, and the 64-bit mode
-/

namespace Verif.KeyBitmap

/-- Bytes of all columns. -/
def rowSize (ts : List PgType) : Nat := (ts.map PgType.size).sum

/-- The `Datum`s of a row stand for its values. -/
def RowStored : List PgType → List Datum → List V → Prop
  | t :: ts, d :: ds, x :: xs => Stored t d x ∧ RowStored ts ds xs
  | [], [], [] => True
  | _, _, _ => False

/-- The `Datum`s are those PostgreSQL makes of the values. -/
def RowExact : List PgType → List Datum → List V → Prop
  | t :: ts, d :: ds, x :: xs => Exact t d x ∧ RowExact ts ds xs
  | [], [], [] => True
  | _, _, _ => False

/-- The number that stands for a row. -/
def rowCode : List PgType → List V → Nat
  | t :: ts, x :: xs => 256 ^ rowSize ts * code t x + rowCode ts xs
  | _, _ => 0

theorem code_bound {t : PgType} {x : V} (hx : HasType t x) : code t x < 256 ^ t.size := by
  have hd : ∃ d, Stored t d x := by
    cases x with
    | int v =>
      refine ⟨.num (v % 2 ^ (8 * t.size)).toNat, ?_⟩
      show ((v % 2 ^ (8 * t.size)).toNat : Int) % 2 ^ (8 * t.size) = _
      have hp : (0 : Int) < 2 ^ (8 * t.size) := Int.pow_pos (by omega)
      rw [Int.toNat_of_nonneg (Int.emod_nonneg _ (by omega)), Int.emod_emod]
    | nat n => exact ⟨.num n, Nat.mod_eq_of_lt hx.2⟩
    | float n => exact ⟨.num n, Nat.mod_eq_of_lt hx.2⟩
    | bytes b => exact ⟨.ptr b, rfl⟩
  obtain ⟨d, hd⟩ := hd
  obtain ⟨bytes, _, h2, h3, h4⟩ := encodeOne_spec hd hx
  have := value_lt bytes h3
  rw [h2, h4] at this
  exact this

theorem rowCode_bound : ∀ {ts : List PgType} {xs : List V}, RowTyped ts xs →
    rowCode ts xs < 256 ^ rowSize ts
  | [], [], _ => by simp [rowCode, rowSize]
  | t :: ts, x :: xs, h => by
    have h1 := code_bound h.1
    have h2 := rowCode_bound h.2
    show 256 ^ rowSize ts * code t x + rowCode ts xs < 256 ^ rowSize (t :: ts)
    have e : rowSize (t :: ts) = t.size + rowSize ts := by simp [rowSize]
    rw [e, Nat.pow_add]
    have := pow_step (256 ^ rowSize ts) _ _ _ 0 h1 h2
    rw [Nat.mul_comm (256 ^ t.size)]
    omega

theorem rowCode_lt : ∀ {ts : List PgType} {xs ys : List V}, RowTyped ts xs → RowTyped ts ys →
    (rowLt ts xs ys ↔ rowCode ts xs < rowCode ts ys)
  | [], [], [], _, _ => by simp [rowLt, rowCode]
  | t :: ts, x :: xs, y :: ys, hx, hy => by
    have ih := rowCode_lt hx.2 hy.2
    have b1 := rowCode_bound hx.2
    have b2 := rowCode_bound hy.2
    show (vLt t x y ∨ (vEq t x y ∧ rowLt ts xs ys)) ↔ 256 ^ rowSize ts * code t x + rowCode ts xs <
      256 ^ rowSize ts * code t y + rowCode ts ys
    rw [code_lt hx.1 hy.1, code_eq hx.1 hy.1, ih]
    rcases Nat.lt_trichotomy (code t x) (code t y) with c | c | c
    · have := pow_step (256 ^ rowSize ts) _ _ _ (rowCode ts ys) c b1
      simp [c, this]
    · rw [c]; simp
    · have := pow_step (256 ^ rowSize ts) _ _ _ (rowCode ts xs) c b2
      omega

theorem rowCode_eq : ∀ {ts : List PgType} {xs ys : List V}, RowTyped ts xs → RowTyped ts ys →
    (rowEq ts xs ys ↔ rowCode ts xs = rowCode ts ys)
  | [], [], [], _, _ => by simp [rowEq, rowCode]
  | t :: ts, x :: xs, y :: ys, hx, hy => by
    have ih := rowCode_eq hx.2 hy.2
    have b1 := rowCode_bound hx.2
    have b2 := rowCode_bound hy.2
    show (vEq t x y ∧ rowEq ts xs ys) ↔ 256 ^ rowSize ts * code t x + rowCode ts xs =
      256 ^ rowSize ts * code t y + rowCode ts ys
    rw [code_eq hx.1 hy.1, ih]
    rcases Nat.lt_trichotomy (code t x) (code t y) with c | c | c
    · have := pow_step (256 ^ rowSize ts) _ _ _ (rowCode ts ys) c b1
      omega
    · rw [c]; simp
    · have := pow_step (256 ^ rowSize ts) _ _ _ (rowCode ts xs) c b2
      omega

theorem keyLen_foldl (l : List Nat) (n : Int) :
    l.foldl (fun n t => n + fixedWidth t) n = n + keyLen l := by
  unfold keyLen
  induction l generalizing n with
  | nil => simp
  | cons a l ih => rw [List.foldl_cons, List.foldl_cons, ih, ih (0 + _)]; omega

theorem keyLen_cons (a : Nat) (l : List Nat) : keyLen (a :: l) = fixedWidth a + keyLen l := by
  show List.foldl _ _ _ = _
  rw [List.foldl_cons, keyLen_foldl]; omega

theorem fixedWidth_eq (t : PgType) : fixedWidth t.number = t.size := by
  unfold fixedWidth; rw [lookup_eq]

theorem keyLen_eq (ts : List PgType) : keyLen (ts.map PgType.number) = rowSize ts := by
  induction ts with
  | nil => rfl
  | cons t ts ih =>
    rw [List.map_cons, keyLen_cons, ih, fixedWidth_eq]
    simp [rowSize]

/-- Writing the columns after a part already written. -/
theorem encodeCols_spec : ∀ {ts : List PgType} {ds : List Datum} {xs : List V} (pre rest : List Nat),
    RowStored ts ds xs → RowTyped ts xs → rest.length = rowSize ts →
    ∃ bytes, encodeCols (ds.zip (ts.map PgType.number)) pre.length (pre ++ rest) = .ok (pre ++ bytes) ∧
      bytes.length = rowSize ts ∧ (∀ b ∈ bytes, b < 256) ∧ value bytes = rowCode ts xs
  | [], [], [], pre, rest, _, _, hr => by
    have : rest = [] := List.length_eq_zero_iff.1 hr
    subst this
    exact ⟨[], rfl, rfl, (by intro b hb; cases hb), rfl⟩
  | t :: ts, d :: ds, x :: xs, pre, rest, hs, hx, hr => by
    obtain ⟨bytes, h1, h2, h3, h4⟩ := encodeOne_spec hs.1 hx.1
    have hrs : rowSize (t :: ts) = t.size + rowSize ts := by simp [rowSize]
    rw [hrs] at hr
    obtain ⟨more, g1, g2, g3, g4⟩ := encodeCols_spec (pre ++ bytes) (rest.drop bytes.length) hs.2 hx.2
      (by rw [List.length_drop, hr, h2]; omega)
    refine ⟨bytes ++ more, ?_, by rw [List.length_append, h2, g2, hrs], ?_, ?_⟩
    · simp only [List.map_cons, List.zip_cons_cons, encodeCols, h1, R.bind]
      have hw : writeAt (pre ++ rest) (pre.length : Int) bytes =
          .ok ((pre ++ bytes) ++ rest.drop bytes.length) := by
        unfold writeAt
        rw [if_neg (by rw [List.length_append]; omega)]
        congr 1
        rw [Int.toNat_natCast, List.take_left]
        congr 1
        rw [List.drop_append, Nat.add_sub_cancel_left, List.drop_eq_nil_of_le (by omega)]
        rfl
      rw [hw]
      simp only
      have hl : ((pre.length : Int) + bytes.length) = ((pre ++ bytes).length : Int) := by
        rw [List.length_append]; omega
      rw [hl, g1, List.append_assoc]
    · intro b hb
      rcases List.mem_append.1 hb with hb | hb
      · exact h3 b hb
      · exact g3 b hb
    · rw [value_append, g2, g4, h4]
      rfl

theorem value_zeros (k : Nat) : value (List.replicate k 0) = 0 := by
  induction k with
  | zero => rfl
  | succ k ih => rw [List.replicate_succ, value_cons, ih]; omega

/-- The key of a row. -/
theorem encodeKey_spec {ts : List PgType} {ds : List Datum} {xs : List V}
    (hs : RowStored ts ds xs) (hx : RowTyped ts xs) (hl : rowSize ts ≤ 24) :
    ∃ bytes, encodeKey (ds.zip (ts.map PgType.number)) =
        .ok (List.replicate (24 - rowSize ts) 0 ++ bytes) ∧
      bytes.length = rowSize ts ∧ (∀ b ∈ bytes, b < 256) ∧ value bytes = rowCode ts xs := by
  have hlen : ds.length = ts.length := by
    have : ∀ {ts : List PgType} {ds : List Datum} {xs : List V}, RowStored ts ds xs →
        ds.length = ts.length := by
      intro ts
      induction ts with
      | nil => intro ds xs h; cases ds <;> cases xs <;> first | rfl | cases h
      | cons t ts ih =>
        intro ds xs h
        cases ds with
        | nil => cases h
        | cons d ds =>
          cases xs with
          | nil => cases h
          | cons x xs => simp [ih h.2]
    exact this hs
  have hm : (ds.zip (ts.map PgType.number)).map (·.2) = ts.map PgType.number := by
    rw [← List.unzip_snd, List.unzip_zip (by simp [hlen])]
  unfold encodeKey
  rw [hm, keyLen_eq]
  obtain ⟨bytes, h1, h2, h3, h4⟩ := encodeCols_spec (List.replicate (24 - rowSize ts) 0)
    (List.replicate (rowSize ts) 0) hs hx (by simp)
  refine ⟨bytes, ?_, h2, h3, h4⟩
  rw [List.length_replicate, List.replicate_append_replicate, show 24 - rowSize ts + rowSize ts = 24 by omega] at h1
  rw [← h1]
  congr 1
  simp only [FIXED_BYTES]
  omega

theorem decodeCols_spec : ∀ {ts : List PgType} {xs : List V} (pre bytes : List Nat),
    RowTyped ts xs → bytes.length = rowSize ts → (∀ b ∈ bytes, b < 256) →
    value bytes = rowCode ts xs →
    ∃ ds ys, decodeCols (ts.map PgType.number) pre.length (pre ++ bytes) = .ok ds ∧
      RowExact ts ds ys ∧ RowTyped ts ys ∧ rowEq ts xs ys
  | [], [], pre, bytes, _, _, _, _ => ⟨[], [], rfl, trivial, trivial, trivial⟩
  | t :: ts, x :: xs, pre, bytes, hx, hl, hb, hv => by
    have hrs : rowSize (t :: ts) = t.size + rowSize ts := by simp [rowSize]
    rw [hrs] at hl
    have hsplit : bytes.take t.size ++ bytes.drop t.size = bytes := List.take_append_drop ..
    have hl1 : (bytes.take t.size).length = t.size := by rw [List.length_take]; omega
    have hl2 : (bytes.drop t.size).length = rowSize ts := by rw [List.length_drop]; omega
    have hb1 : ∀ b ∈ bytes.take t.size, b < 256 := fun b h => hb b (List.mem_of_mem_take h)
    have hb2 : ∀ b ∈ bytes.drop t.size, b < 256 := fun b h => hb b (List.mem_of_mem_drop h)
    have hval : value (bytes.take t.size) = code t x ∧ value (bytes.drop t.size) = rowCode ts xs := by
      rw [← hsplit, value_append, hl2] at hv
      have hv : 256 ^ rowSize ts * value (bytes.take t.size) + value (bytes.drop t.size) =
        256 ^ rowSize ts * code t x + rowCode ts xs := hv
      have b1 := value_lt _ hb2
      rw [hl2] at b1
      have b2 := rowCode_bound hx.2
      rcases Nat.lt_trichotomy (value (bytes.take t.size)) (code t x) with c | c | c
      · have := pow_step (256 ^ rowSize ts) _ _ _ (rowCode ts xs) c b1; omega
      · rw [c] at hv; exact ⟨c, by omega⟩
      · have := pow_step (256 ^ rowSize ts) _ _ _ (value (bytes.drop t.size)) c b2; omega
    obtain ⟨d, y, d1, d2, d3, d4⟩ := decodeOne_spec hx.1 hl1 hb1 hval.1
    obtain ⟨ds, ys, e1, e2, e3, e4⟩ := decodeCols_spec (pre ++ bytes.take t.size) (bytes.drop t.size)
      hx.2 hl2 hb2 hval.2
    refine ⟨d :: ds, y :: ys, ?_, ⟨d2, e2⟩, ⟨d3, e3⟩, ⟨d4, e4⟩⟩
    simp only [List.map_cons, decodeCols, lookup_eq]
    rw [if_neg (by rw [List.length_append]; omega)]
    have h1 : ((pre ++ bytes).drop (pre.length : Int).toNat).take t.size = bytes.take t.size := by
      rw [Int.toNat_natCast, List.drop_left]
    rw [h1, d1]
    simp only [R.bind]
    have h2 : ((pre.length : Int) + t.size) = ((pre ++ bytes.take t.size).length : Int) := by
      rw [List.length_append, hl1]; omega
    rw [h2]
    rw [List.append_assoc, hsplit] at e1
    rw [e1]

theorem fixedMode_types {l : List Nat} (h : fixedMode l = true) :
    ∃ ts : List PgType, l = ts.map PgType.number ∧ rowSize ts ≤ 24 := by
  unfold fixedMode at h
  simp only [Bool.and_eq_true, decide_eq_true_eq] at h
  obtain ⟨⟨h1, h2⟩, h3⟩ := h
  have : ∃ ts : List PgType, l = ts.map PgType.number := by
    clear h2 h3
    induction l with
    | nil => exact ⟨[], rfl⟩
    | cons a l ih =>
      rw [List.all_cons, Bool.and_eq_true] at h1
      obtain ⟨ts, hts⟩ := ih h1.2
      have ha : ∃ t : PgType, a = t.number := by
        have h := h1.1
        unfold fixedLookup at h
        rw [Option.isSome_map, List.find?_isSome] at h
        obtain ⟨e, he, hea⟩ := h
        have hea : e.1 = a := by simpa using hea
        subst hea
        simp only [fixedTypes, List.mem_cons, List.not_mem_nil, or_false] at he
        rcases he with h | h | h | h | h | h | h | h | h | h | h | h | h | h | h | h <;>
          rw [h]
        · exact ⟨.bool, rfl⟩
        · exact ⟨.char, rfl⟩
        · exact ⟨.int2, rfl⟩
        · exact ⟨.int4, rfl⟩
        · exact ⟨.date, rfl⟩
        · exact ⟨.oid, rfl⟩
        · exact ⟨.float4, rfl⟩
        · exact ⟨.int8, rfl⟩
        · exact ⟨.time, rfl⟩
        · exact ⟨.timestamp, rfl⟩
        · exact ⟨.timestamptz, rfl⟩
        · exact ⟨.money, rfl⟩
        · exact ⟨.float8, rfl⟩
        · exact ⟨.macaddr, rfl⟩
        · exact ⟨.macaddr8, rfl⟩
        · exact ⟨.uuid, rfl⟩
      obtain ⟨t, ht⟩ := ha
      exact ⟨t :: ts, by rw [ht, hts]; rfl⟩
  obtain ⟨ts, hts⟩ := this
  refine ⟨ts, hts, ?_⟩
  rw [hts, keyLen_eq] at h3
  simp only [FIXED_BYTES] at h3
  omega

/-! ## 64-bit mode -/

theorem int64ToUint64_eq (v : Int) (h1 : -9223372036854775808 ≤ v) (h2 : v < 9223372036854775808) :
    int64ToUint64 v = (v + 9223372036854775808).toNat := by
  unfold int64ToUint64
  split
  · have hu : u64 v < 2 ^ 63 := by unfold u64; omega
    have := Nat.two_pow_add_eq_or_of_lt (i := 63) hu 1
    rw [Nat.or_comm]
    show 2 ^ 63 * 1 ||| u64 v = _
    rw [← this]
    unfold u64
    omega
  · unfold HIGH u64 i64
    split <;> omega

theorem uint64ToInt64_eq (n : Nat) (h : n < 18446744073709551616) :
    uint64ToInt64 n = (n : Int) - 9223372036854775808 := by
  unfold uint64ToInt64
  have ha := and_sign 63 n h
  have hH : HIGH = 2 ^ 63 := rfl
  rw [hH]
  simp only [ha]
  split
  · rw [show (9223372036854775807 : Nat) = 2 ^ 63 - 1 from rfl, Nat.and_two_pow_sub_one_eq_mod]
    unfold i64
    split <;> omega
  · unfold u64 i64
    repeat' split
    all_goals omega

end Verif.KeyBitmap
