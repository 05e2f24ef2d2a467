/-!
# System caches: the order of the keys

Model of `src/catalog/o_sys_cache.c`, the part that orders the entries of a system cache in its
B-tree: `o_sys_cache_key_cmp` and `o_sys_cache_cmp`.
-/

namespace Verif.SysCache

/-- One column of a key: a `Name` or any other type, held in a `Datum` of 64 bits.  Names are
simplified to the bytes before the terminating zero.
`/repo/include/catalog/o_sys_cache.h:62-70`, `/repo/src/catalog/o_sys_cache.c:2279-2294`. -/
inductive Col where
  | name (bytes : List Nat)
  | datum (v : Nat)
deriving DecidableEq, Repr

/-- `strncmp` of two names: the first pair of bytes which differ decides, the end of a name counts
as a zero byte.  `/repo/src/catalog/o_sys_cache.c:2281-2289`; simplified: the length limit
`NAMEDATALEN` is never reached as a name ends before it. -/
def nameCmp : List Nat → List Nat → Int
  | [], [] => 0
  | [], b :: _ => -(b : Int)
  | a :: _, [] => a
  | a :: as, b :: bs => if a = b then nameCmp as bs else (a : Int) - b

/-- The difference of two `Datum`s (unsigned, 64 bits) stored in an `int` (signed, 32 bits).
`/repo/src/catalog/o_sys_cache.c:2291-2292`, with `int cmp` of line 2273. -/
def datumCmp (a b : Nat) : Int :=
  let d : Nat := (a + 2 ^ 64 - b) % 2 ^ 32
  if d < 2 ^ 31 then (d : Int) else (d : Int) - 2 ^ 32

/-- The comparison of one column.  `/repo/src/catalog/o_sys_cache.c:2279-2294`; columns of unequal
kinds do not occur, as the types are those of the cache. -/
def colCmp : Col → Col → Int
  | .name a, .name b => nameCmp a b
  | .datum a, .datum b => datumCmp a b
  | .name _, .datum _ => -1
  | .datum _, .name _ => 1

/-- `o_sys_cache_key_cmp`: the first column which differs decides; only as many columns are
compared as both keys have (`nkeys`).  `/repo/src/catalog/o_sys_cache.c:2268-2299`. -/
def keyCmp : List Col → List Col → Int
  | a :: as, b :: bs =>
    let c := colCmp a b
    if c = 0 then keyCmp as bs else c
  | _, _ => 0

/-- What `o_sys_cache_cmp` reads of an entry.  `/repo/include/catalog/o_sys_cache.h:54-66`. -/
structure TreeKey where
  datoid : Nat
  cols : List Col
  lsn : Nat
deriving DecidableEq, Repr

/-- `o_sys_cache_cmp` for two entries (`bound = false`, the LSNs take part) or an entry and a bound
(`bound = true`).  `/repo/src/catalog/o_sys_cache.c:2346-2394`. -/
def treeCmp (bound : Bool) (a b : TreeKey) : Int :=
  if a.datoid ≠ b.datoid then (if a.datoid < b.datoid then -1 else 1)
  else
    let c := keyCmp a.cols b.cols
    if c ≠ 0 then c
    else if bound then 0
    else if a.lsn ≠ b.lsn then (if a.lsn < b.lsn then -1 else 1)
    else 0

/-! ## Statements -/

/-- A name of the SQL server: no zero byte before its end. -/
def NameOk (bs : List Nat) : Prop := ∀ b ∈ bs, 0 < b

/-- The columns have the kinds `w` and the values of a column lie less than `2 ^ 31` apart, from
the first value `w` names for that column; a `none` stands for a name. -/
def InWindow : List (Option Nat) → List Col → Prop
  | [], [] => True
  | none :: w, .name bs :: k => NameOk bs ∧ InWindow w k
  | some lo :: w, .datum v :: k => lo ≤ v ∧ v < lo + 2 ^ 31 ∧ v < 2 ^ 64 ∧ InWindow w k
  | _, _ => False

/-- The columns have the kinds `w` and the values are OIDs, of 32 bits. -/
def IsOids : List Bool → List Col → Prop
  | [], [] => True
  | true :: w, .name bs :: k => NameOk bs ∧ IsOids w k
  | false :: w, .datum v :: k => v < 2 ^ 32 ∧ IsOids w k
  | _, _ => False

/-! ## Proofs -/

theorem nameCmp_zero : ∀ (a b : List Nat), NameOk a → NameOk b → (nameCmp a b = 0 ↔ a = b)
  | [], [], _, _ => by simp [nameCmp]
  | [], b :: bs, _, hb => by
    have := hb b (by simp)
    simp [nameCmp]; omega
  | a :: as, [], ha, _ => by
    have := ha a (by simp)
    simp [nameCmp]; omega
  | a :: as, b :: bs, ha, hb => by
    have ih := nameCmp_zero as bs (fun x hx => ha x (by simp [hx])) (fun x hx => hb x (by simp [hx]))
    by_cases h : a = b
    · simp [nameCmp, h, ih]
    · simp [nameCmp, h]; omega

theorem nameCmp_anti : ∀ (a b : List Nat), (nameCmp a b < 0 ↔ 0 < nameCmp b a)
  | [], [] => by simp [nameCmp]
  | [], b :: bs => by simp [nameCmp]
  | a :: as, [] => by simp [nameCmp]
  | a :: as, b :: bs => by
    have ih := nameCmp_anti as bs
    by_cases h : a = b
    · simp [nameCmp, h, ih]
    · have h' : ¬ b = a := fun e => h e.symm
      simp [nameCmp, h, h']; omega

theorem nameCmp_trans : ∀ (a b c : List Nat), NameOk a → NameOk b → NameOk c →
    nameCmp a b < 0 → nameCmp b c < 0 → nameCmp a c < 0
  | [], [], c, _, _, _, h, _ => by simp [nameCmp] at h
  | [], b :: bs, [], _, _, _, _, h => by simp [nameCmp] at h; omega
  | [], b :: bs, c :: cs, _, _, hc, _, _ => by
    have := hc c (by simp)
    simp [nameCmp]; omega
  | a :: as, [], c, _, _, _, h, _ => by simp [nameCmp] at h; omega
  | a :: as, b :: bs, [], _, _, _, _, h => by simp [nameCmp] at h; omega
  | a :: as, b :: bs, c :: cs, ha, hb, hc, h1, h2 => by
    have ih := nameCmp_trans as bs cs (fun x hx => ha x (by simp [hx]))
      (fun x hx => hb x (by simp [hx])) (fun x hx => hc x (by simp [hx]))
    by_cases hab : a = b
    · subst hab
      by_cases hbc : a = c
      · subst hbc
        simp only [nameCmp, if_true] at *
        exact ih h1 h2
      · simp only [nameCmp, if_neg hbc] at *
        exact h2
    · by_cases hbc : b = c
      · subst hbc
        simp only [nameCmp, if_neg hab] at *
        exact h1
      · simp only [nameCmp, if_neg hab, if_neg hbc] at h1 h2
        have : a ≠ c := by omega
        simp only [nameCmp, if_neg this]
        omega

theorem datumCmp_window (lo a b : Nat) (ha : lo ≤ a ∧ a < lo + 2 ^ 31 ∧ a < 2 ^ 64)
    (hb : lo ≤ b ∧ b < lo + 2 ^ 31 ∧ b < 2 ^ 64) : datumCmp a b = (a : Int) - b := by
  unfold datumCmp
  simp only
  split <;> omega

theorem datumCmp_oid_zero (a b : Nat) (ha : a < 2 ^ 32) (hb : b < 2 ^ 32) :
    datumCmp a b = 0 ↔ a = b := by
  unfold datumCmp
  simp only
  split <;> omega

theorem keyCmp_name (x y : List Nat) (a b : List Col) :
    keyCmp (.name x :: a) (.name y :: b) = if nameCmp x y = 0 then keyCmp a b else nameCmp x y :=
  rfl

theorem keyCmp_datum (x y : Nat) (a b : List Col) :
    keyCmp (.datum x :: a) (.datum y :: b) = if datumCmp x y = 0 then keyCmp a b else datumCmp x y :=
  rfl

theorem keyCmp_zero_window : ∀ (w : List (Option Nat)) (a b : List Col), InWindow w a →
    InWindow w b → (keyCmp a b = 0 ↔ a = b)
  | [], [], [], _, _ => by simp [keyCmp]
  | none :: w, .name x :: a, .name y :: b, ha, hb => by
    have ih := keyCmp_zero_window w a b ha.2 hb.2
    have hz := nameCmp_zero x y ha.1 hb.1
    by_cases h : nameCmp x y = 0
    · rw [keyCmp_name, if_pos h, ih, hz.mp h]
      simp
    · have : x ≠ y := fun e => h (hz.mpr e)
      simp [keyCmp_name, h, this]
  | some lo :: w, .datum x :: a, .datum y :: b, ha, hb => by
    have ih := keyCmp_zero_window w a b ha.2.2.2 hb.2.2.2
    have hd := datumCmp_window lo x y ⟨ha.1, ha.2.1, ha.2.2.1⟩ ⟨hb.1, hb.2.1, hb.2.2.1⟩
    by_cases h : x = y
    · subst h
      have h0 : datumCmp x x = 0 := by rw [hd]; omega
      simp [keyCmp, colCmp, h0, ih]
    · have h0 : datumCmp x y ≠ 0 := by rw [hd]; omega
      simp [keyCmp, colCmp, h0, h]

theorem keyCmp_zero_oids : ∀ (w : List Bool) (a b : List Col), IsOids w a →
    IsOids w b → (keyCmp a b = 0 ↔ a = b)
  | [], [], [], _, _ => by simp [keyCmp]
  | true :: w, .name x :: a, .name y :: b, ha, hb => by
    have ih := keyCmp_zero_oids w a b ha.2 hb.2
    have hz := nameCmp_zero x y ha.1 hb.1
    by_cases h : nameCmp x y = 0
    · rw [keyCmp_name, if_pos h, ih, hz.mp h]
      simp
    · have : x ≠ y := fun e => h (hz.mpr e)
      simp [keyCmp_name, h, this]
  | false :: w, .datum x :: a, .datum y :: b, ha, hb => by
    have ih := keyCmp_zero_oids w a b ha.2 hb.2
    have hd := datumCmp_oid_zero x y ha.1 hb.1
    by_cases h : x = y
    · subst h
      simp [keyCmp, colCmp, hd.mpr rfl, ih]
    · have h0 : datumCmp x y ≠ 0 := fun e => h (hd.mp e)
      simp [keyCmp, colCmp, h0, h]

theorem keyCmp_anti : ∀ (w : List (Option Nat)) (a b : List Col), InWindow w a →
    InWindow w b → (keyCmp a b < 0 ↔ 0 < keyCmp b a)
  | [], [], [], _, _ => by simp [keyCmp]
  | none :: w, .name x :: a, .name y :: b, ha, hb => by
    have ih := keyCmp_anti w a b ha.2 hb.2
    have h1 := nameCmp_zero x y ha.1 hb.1
    have h2 := nameCmp_zero y x hb.1 ha.1
    have h3 := nameCmp_anti x y
    by_cases h : x = y
    · subst h
      simp [keyCmp, colCmp, h1.mpr rfl, ih]
    · have n1 : nameCmp x y ≠ 0 := fun e => h (h1.mp e)
      have n2 : nameCmp y x ≠ 0 := fun e => h (h2.mp e).symm
      simp [keyCmp, colCmp, n1, n2, h3]
  | some lo :: w, .datum x :: a, .datum y :: b, ha, hb => by
    have ih := keyCmp_anti w a b ha.2.2.2 hb.2.2.2
    have h1 := datumCmp_window lo x y ⟨ha.1, ha.2.1, ha.2.2.1⟩ ⟨hb.1, hb.2.1, hb.2.2.1⟩
    have h2 := datumCmp_window lo y x ⟨hb.1, hb.2.1, hb.2.2.1⟩ ⟨ha.1, ha.2.1, ha.2.2.1⟩
    by_cases h : x = y
    · subst h
      have h0 : datumCmp x x = 0 := by rw [h1]; omega
      simp [keyCmp, colCmp, h0, ih]
    · have n1 : datumCmp x y ≠ 0 := by rw [h1]; omega
      have n2 : datumCmp y x ≠ 0 := by rw [h2]; omega
      rw [keyCmp_datum, keyCmp_datum, if_neg n1, if_neg n2, h1, h2]
      omega

theorem keyCmp_trans : ∀ (w : List (Option Nat)) (a b c : List Col), InWindow w a →
    InWindow w b → InWindow w c → keyCmp a b < 0 → keyCmp b c < 0 → keyCmp a c < 0
  | [], [], [], [], _, _, _, h, _ => by simp [keyCmp] at h
  | none :: w, .name x :: a, .name y :: b, .name z :: c, ha, hb, hc, h1, h2 => by
    have ih := keyCmp_trans w a b c ha.2 hb.2 hc.2
    have exy := nameCmp_zero x y ha.1 hb.1
    have eyz := nameCmp_zero y z hb.1 hc.1
    have exz := nameCmp_zero x z ha.1 hc.1
    rw [keyCmp_name] at h1 h2 ⊢
    by_cases hxy : x = y
    · subst hxy
      rw [if_pos (exy.mpr rfl)] at h1
      by_cases hyz : x = z
      · subst hyz
        rw [if_pos (eyz.mpr rfl)] at h2 ⊢
        exact ih h1 h2
      · rw [if_neg (fun e => hyz (eyz.mp e))] at h2 ⊢
        exact h2
    · rw [if_neg (fun e => hxy (exy.mp e))] at h1
      by_cases hyz : y = z
      · subst hyz
        rw [if_neg (fun e => hxy (exy.mp e))]
        exact h1
      · rw [if_neg (fun e => hyz (eyz.mp e))] at h2
        have h3 := nameCmp_trans x y z ha.1 hb.1 hc.1 h1 h2
        rw [if_neg (by omega)]
        exact h3
  | some lo :: w, .datum x :: a, .datum y :: b, .datum z :: c, ha, hb, hc, h1, h2 => by
    have ih := keyCmp_trans w a b c ha.2.2.2 hb.2.2.2 hc.2.2.2
    have exy := datumCmp_window lo x y ⟨ha.1, ha.2.1, ha.2.2.1⟩ ⟨hb.1, hb.2.1, hb.2.2.1⟩
    have eyz := datumCmp_window lo y z ⟨hb.1, hb.2.1, hb.2.2.1⟩ ⟨hc.1, hc.2.1, hc.2.2.1⟩
    have exz := datumCmp_window lo x z ⟨ha.1, ha.2.1, ha.2.2.1⟩ ⟨hc.1, hc.2.1, hc.2.2.1⟩
    rw [keyCmp_datum] at h1 h2 ⊢
    rw [exy] at h1
    rw [eyz] at h2
    rw [exz]
    by_cases hxy : x = y
    · subst hxy
      rw [if_pos (by omega)] at h1
      by_cases hyz : x = z
      · subst hyz
        rw [if_pos (by omega)] at h2 ⊢
        exact ih h1 h2
      · rw [if_neg (by omega)] at h2 ⊢
        exact h2
    · rw [if_neg (by omega)] at h1
      by_cases hyz : y = z
      · subst hyz
        rw [if_neg (by omega)]
        exact h1
      · rw [if_neg (by omega)] at h2
        rw [if_neg (by omega)]
        omega

end Verif.SysCache
