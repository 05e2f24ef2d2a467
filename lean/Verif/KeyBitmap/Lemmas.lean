import Verif.KeyBitmap.Model

/-!
# Lemmas about ordered maps, chunks and the binary search
-/

namespace Verif.KeyBitmap

section map
variable {K V : Type} [DecidableEq K]

theorem find_set (lt : K → K → Bool) (k k' : K) (v : V) (t : List (K × V)) :
    find k' (set lt k v t) = if k' = k then some v else find k' t := by
  induction t with
  | nil => simp [set, find]
  | cons e t ih =>
    obtain ⟨k1, v1⟩ := e
    unfold set
    split
    · rename_i h; subst h
      simp only [find]
      split <;> simp_all
    · rename_i h
      split
      · simp only [find]
      · simp only [find, ih]
        split
        · rename_i h2; subst h2
          rw [if_neg (fun e => h e.symm)]
        · rfl

theorem find_delete (k k' : K) (t : List (K × V)) :
    find k' (delete k t) = if k' = k then none else find k' t := by
  induction t with
  | nil => simp [delete, find]
  | cons e t ih =>
    obtain ⟨k1, v1⟩ := e
    unfold delete at ih ⊢
    by_cases h : k1 = k
    · subst h
      simp only [ne_eq, List.filter_cons, not_true_eq_false, decide_false, find, ih]
      split <;> simp_all
    · simp only [ne_eq, List.filter_cons, h, not_false_eq_true, decide_true, if_true, find]
      simp only [ne_eq] at ih
      rw [ih]
      by_cases h2 : k' = k1
      · subst h2; simp [h]
      · simp [h2]

theorem find_some_mem {k : K} {v : V} {t : List (K × V)} (h : find k t = some v) :
    (k, v) ∈ t := by
  induction t with
  | nil => cases h
  | cons e t ih =>
    obtain ⟨k1, v1⟩ := e
    unfold find at h
    split at h
    · rename_i h2; subst h2; cases h; exact List.mem_cons_self ..
    · exact List.mem_cons_of_mem _ (ih h)

theorem find_isSome {k : K} {t : List (K × V)} : (find k t).isSome ↔ k ∈ t.map (·.1) := by
  induction t with
  | nil => simp [find]
  | cons e t ih =>
    obtain ⟨k1, v1⟩ := e
    unfold find
    split
    · rename_i h; simp [h]
    · rename_i h; simp only [ih, List.map_cons, List.mem_cons]
      constructor
      · exact .inr
      · rintro (h2 | h2)
        · exact absurd h2 h
        · exact h2

theorem find_none {k : K} {t : List (K × V)} : find k t = none ↔ k ∉ t.map (·.1) := by
  rw [← find_isSome]; cases find k t <;> simp

theorem mem_find {k : K} {v : V} {t : List (K × V)} (hn : (t.map (·.1)).Nodup)
    (h : (k, v) ∈ t) : find k t = some v := by
  induction t with
  | nil => cases h
  | cons e t ih =>
    obtain ⟨k1, v1⟩ := e
    rw [List.map_cons, List.nodup_cons] at hn
    unfold find
    rcases List.mem_cons.1 h with h | h
    · cases h; simp
    · have : k ≠ k1 := by
        rintro rfl; exact hn.1 (List.mem_map.2 ⟨(k, v), by assumption, rfl⟩)
      rw [if_neg this]; exact ih hn.2 h

/-- Strict order given by a Boolean function. -/
structure Order (lt : K → K → Bool) (ok : K → Prop) : Prop where
  irrefl : ∀ a, lt a a = false
  trans : ∀ a b c, ok a → ok b → ok c → lt a b = true → lt b c = true → lt a c = true
  total : ∀ a b, ok a → ok b → a ≠ b → lt a b = false → lt b a = true

def Sorted (lt : K → K → Bool) (ok : K → Prop) (t : List (K × V)) : Prop :=
  t.Pairwise (fun a b => lt a.1 b.1 = true) ∧ ∀ e ∈ t, ok e.1

theorem mem_set {lt : K → K → Bool} {k : K} {v : V} {t : List (K × V)} {e : K × V}
    (h : e ∈ set lt k v t) : e = (k, v) ∨ e ∈ t := by
  induction t with
  | nil => simp [set] at h; exact .inl h
  | cons e1 t ih =>
    obtain ⟨k1, v1⟩ := e1
    unfold set at h
    split at h
    · rcases List.mem_cons.1 h with h | h
      · exact .inl h
      · exact .inr (List.mem_cons_of_mem _ h)
    · split at h
      · rcases List.mem_cons.1 h with h | h
        · exact .inl h
        · exact .inr h
      · rcases List.mem_cons.1 h with h | h
        · exact .inr (h ▸ List.mem_cons_self ..)
        · rcases ih h with h | h
          · exact .inl h
          · exact .inr (List.mem_cons_of_mem _ h)

theorem sorted_set {lt : K → K → Bool} {ok : K → Prop} (ho : Order lt ok) {k : K} {v : V}
    {t : List (K × V)} (h : Sorted lt ok t) (hk : ok k) : Sorted lt ok (set lt k v t) := by
  refine ⟨?_, ?_⟩
  · obtain ⟨h1, h2⟩ := h
    induction t with
    | nil => simp [set]
    | cons e t ih =>
      obtain ⟨k1, v1⟩ := e
      rw [List.pairwise_cons] at h1
      have hk1 : ok k1 := h2 (k1, v1) (List.mem_cons_self ..)
      unfold set
      split
      · rename_i e; subst e
        exact List.pairwise_cons.2 ⟨h1.1, h1.2⟩
      · rename_i hne
        split
        · rename_i hlt
          refine List.pairwise_cons.2 ⟨?_, List.pairwise_cons.2 h1⟩
          intro x hx
          rcases List.mem_cons.1 hx with hx | hx
          · rw [hx]; exact hlt
          · exact ho.trans k k1 x.1 hk hk1 (h2 x (List.mem_cons_of_mem _ hx)) hlt (h1.1 x hx)
        · rename_i hlt
          refine List.pairwise_cons.2 ⟨?_, ih h1.2 (fun e he => h2 e (List.mem_cons_of_mem _ he))⟩
          intro x hx
          rcases mem_set hx with hx | hx
          · rw [hx]; exact ho.total k k1 hk hk1 hne (by simpa using hlt)
          · exact h1.1 x hx
  · intro e he
    rcases mem_set he with he | he
    · rw [he]; exact hk
    · exact h.2 e he

theorem sorted_delete {lt : K → K → Bool} {ok : K → Prop} {k : K} {t : List (K × V)}
    (h : Sorted lt ok t) : Sorted lt ok (delete k t) :=
  ⟨h.1.filter _, fun e he => h.2 e (List.mem_filter.1 he).1⟩

theorem sorted_nodup {lt : K → K → Bool} {ok : K → Prop} (ho : Order lt ok)
    {t : List (K × V)} (h : Sorted lt ok t) : (t.map (·.1)).Nodup := by
  rw [List.Nodup, List.pairwise_map]
  refine h.1.imp ?_
  intro a b hab e
  rw [e, ho.irrefl] at hab; cases hab

theorem find_foldl_delete (ks : List K) (k : K) (t : List (K × V)) :
    find k (ks.foldl (fun t k => delete k t) t) = if k ∈ ks then none else find k t := by
  induction ks generalizing t with
  | nil => simp
  | cons a ks ih =>
    rw [List.foldl_cons, ih, find_delete]
    by_cases h1 : k ∈ ks
    · simp [h1]
    · by_cases h2 : k = a
      · simp [h2]
      · simp [h1, h2]

theorem sorted_foldl_delete {lt : K → K → Bool} {ok : K → Prop} (ks : List K)
    {t : List (K × V)} (h : Sorted lt ok t) :
    Sorted lt ok (ks.foldl (fun t k => delete k t) t) := by
  induction ks generalizing t with
  | nil => exact h
  | cons a ks ih => exact ih (sorted_delete h)

end map

/-! ## The binary search -/

theorem lowerBound_spec {K : Type} (l : List K) (less : K → Bool)
    (hmono : ∀ i j : Nat, ∀ a b : K, i ≤ j → l[i]? = some a → l[j]? = some b →
      less b = true → less a = true) :
    ∀ (n lo hi : Nat), hi ≤ lo + n → lo ≤ hi → hi ≤ l.length →
      (∀ i : Nat, ∀ a : K, i < lo → l[i]? = some a → less a = true) →
      (∀ i : Nat, ∀ a : K, hi ≤ i → l[i]? = some a → less a = false) →
      ∃ r, lowerBound l less n lo hi = some r ∧ r ≤ l.length ∧
        (∀ i : Nat, ∀ a : K, i < r → l[i]? = some a → less a = true) ∧
        (∀ i : Nat, ∀ a : K, r ≤ i → l[i]? = some a → less a = false) := by
  intro n
  induction n with
  | zero =>
    intro lo hi h1 h2 h3 h4 h5
    have : lo = hi := by omega
    subst this
    exact ⟨lo, rfl, h3, h4, h5⟩
  | succ n ih =>
    intro lo hi h1 h2 h3 h4 h5
    unfold lowerBound
    by_cases hlt : lo < hi
    · rw [if_pos hlt]
      have hmid : lo + (hi - lo) / 2 < hi := by omega
      have hm0 : lo ≤ lo + (hi - lo) / 2 := by omega
      have hmn : hi ≤ lo + (hi - lo) / 2 + 1 + n := by omega
      have hmn' : lo + (hi - lo) / 2 ≤ lo + n := by omega
      generalize lo + (hi - lo) / 2 = mid at hmid hm0 hmn hmn'
      have hget : l[mid]? = some (l[mid]'(by omega)) := List.getElem?_eq_getElem (by omega)
      simp only [hget]
      split
      · rename_i hl
        refine ih (mid + 1) hi hmn (by omega) h3 ?_ h5
        intro i a hi' ha
        exact hmono i mid a _ (by omega) ha hget hl
      · rename_i hl
        refine ih lo mid hmn' hm0 (by omega) h4 ?_
        intro i a hi' ha
        cases hla : less a with
        | false => rfl
        | true => exact absurd (hmono mid i _ a hi' hget ha hla) hl
    · rw [if_neg hlt]
      have : lo = hi := by omega
      subst this
      exact ⟨lo, rfl, h3, h4, h5⟩

/-- On a sorted array the search splits it into the smaller keys and the others. -/
theorem lowerBound_drop {K : Type} [DecidableEq K] {lt : K → K → Bool} {ok : K → Prop}
    (ho : Order lt ok)
    (l : List K) (target : K) (hs : l.Pairwise (fun a b => lt a b = true))
    (hok : ∀ a ∈ l, ok a) (ht : ok target) :
    ∃ r, lowerBound l (fun c => lt c target) l.length 0 l.length = some r ∧ r ≤ l.length ∧
      (∀ a ∈ l.take r, lt a target = true) ∧ (∀ a ∈ l.drop r, lt a target = false) := by
  obtain ⟨r, h1, h2, h3, h4⟩ := lowerBound_spec l (fun c => lt c target) (by
      intro i j a b hij ha hb hl
      rcases Nat.lt_or_ge i j with h | h
      · have hi : i < l.length := (List.getElem?_eq_some_iff.1 ha).1
        have hj : j < l.length := (List.getElem?_eq_some_iff.1 hb).1
        have e1 : l[i] = a := (List.getElem?_eq_some_iff.1 ha).2
        have e2 : l[j] = b := (List.getElem?_eq_some_iff.1 hb).2
        have := List.pairwise_iff_getElem.1 hs i j hi hj h
        rw [e1, e2] at this
        exact ho.trans a b target (hok a (e1 ▸ List.getElem_mem ..))
          (hok b (e2 ▸ List.getElem_mem ..)) ht this hl
      · have : i = j := by omega
        subst this
        rw [ha] at hb; cases hb; exact hl)
    l.length 0 l.length (by omega) (by omega) (by omega) (by intro i a h; omega)
    (by intro i a h ha
        have := (List.getElem?_eq_some_iff.1 ha).1; omega)
  refine ⟨r, h1, h2, ?_, ?_⟩
  · intro a ha
    obtain ⟨i, hi, rfl⟩ := List.mem_iff_getElem.1 ha
    rw [List.length_take] at hi
    exact h3 i _ (by omega) (by rw [List.getElem_take]; exact List.getElem?_eq_getElem (by omega))
  · intro a ha
    obtain ⟨i, hi, rfl⟩ := List.mem_iff_getElem.1 ha
    rw [List.length_drop] at hi
    exact h4 (r + i) _ (by omega)
      (by rw [List.getElem_drop]; exact List.getElem?_eq_getElem (by omega))

/-! ## Bits -/

/-- The bit of an offset. -/
def bit (c : Chunk) (off : Nat) : Bool := (c.getD (off / 8) 0).testBit (off % 8)

/-- A well-formed chunk. -/
structure Ok (c : Chunk) : Prop where
  len : c.length = 128
  byte : ∀ b ∈ c, b < 256

theorem Ok.getD_lt {c : Chunk} (h : Ok c) (i : Nat) : c.getD i 0 < 256 := by
  rw [List.getD_eq_getElem?_getD]
  cases hi : c[i]? with
  | none => simp
  | some b => exact h.byte b (List.mem_of_getElem? hi)

theorem Ok.bit_lt {c : Chunk} (h : Ok c) {off : Nat} (hb : bit c off = true) : off < 1024 := by
  unfold bit at hb
  by_cases h1 : off / 8 < 128
  · omega
  · rw [List.getD_eq_getElem?_getD, List.getElem?_eq_none (by rw [h.len]; omega)] at hb
    simp at hb

theorem ok_empty : Ok emptyChunk :=
  ⟨by simp [emptyChunk, BYTES], by intro b hb; simp [emptyChunk] at hb; omega⟩

theorem bit_empty (off : Nat) : bit emptyChunk off = false := by
  unfold bit emptyChunk
  rw [List.getD_eq_getElem?_getD]
  by_cases h : off / 8 < BYTES <;> simp [h]

theorem and_low (v : Nat) : v &&& LOW_MASK = v % 1024 := Nat.and_two_pow_sub_one_eq_mod v 10
theorem and_7 (v : Nat) : v &&& 7 = v % 8 := Nat.and_two_pow_sub_one_eq_mod v 3
theorem shr_10 (v : Nat) : v >>> 10 = v / 1024 := Nat.shiftRight_eq_div_pow v 10
theorem shr_3 (v : Nat) : v >>> 3 = v / 8 := Nat.shiftRight_eq_div_pow v 3

/-- A byte and a mask have a common bit. -/
theorem and_ne_zero (a b : Nat) : ((a &&& b) != 0) = true ↔ ∃ j, a.testBit j = true ∧ b.testBit j = true := by
  constructor
  · intro h
    have : a &&& b ≠ 0 := by simpa using h
    obtain ⟨j, hj⟩ := Nat.exists_testBit_of_ne_zero this
    rw [Nat.testBit_and, Bool.and_eq_true] at hj
    exact ⟨j, hj⟩
  · rintro ⟨j, h1, h2⟩
    have : a &&& b ≠ 0 := by
      intro e
      have : (a &&& b).testBit j = true := by rw [Nat.testBit_and, h1, h2]; rfl
      rw [e] at this; simp at this
    simpa using this

theorem and_bit (b j : Nat) : ((b &&& (1 <<< j)) != 0) = b.testBit j := by
  rw [Bool.eq_iff_iff, and_ne_zero]
  simp only [Nat.one_shiftLeft, Nat.testBit_two_pow, decide_eq_true_eq]
  constructor
  · rintro ⟨i, h1, rfl⟩; exact h1
  · intro h; exact ⟨j, h, rfl⟩

theorem ok_orByte {c : Chunk} (h : Ok c) (i j : Nat) (hj : j < 8) :
    Ok (orByte c i (1 <<< j)) := by
  refine ⟨by rw [orByte, List.length_set]; exact h.len, ?_⟩
  intro b hb
  unfold orByte at hb
  rcases List.mem_or_eq_of_mem_set hb with hb | hb
  · exact h.byte b hb
  · rw [hb]
    have h1 := h.getD_lt i
    rw [Nat.one_shiftLeft]
    exact Nat.or_lt_two_pow (n := 8) h1 (Nat.pow_lt_pow_of_lt (by omega) hj)

theorem bit_orByte {c : Chunk} (h : Ok c) (off off' : Nat) (ho : off < 1024) :
    bit (orByte c (off / 8) (1 <<< (off % 8))) off' = (bit c off' || decide (off' = off)) := by
  unfold bit orByte
  by_cases hi : off' / 8 = off / 8
  · rw [hi]
    have : (c.set (off / 8) (c.getD (off / 8) 0 ||| 1 <<< (off % 8))).getD (off / 8) 0 =
        c.getD (off / 8) 0 ||| 1 <<< (off % 8) := by
      rw [List.getD_eq_getElem?_getD, List.getElem?_set_self (by rw [h.len]; omega)]; rfl
    rw [this, Nat.testBit_or, Nat.one_shiftLeft, Nat.testBit_two_pow]
    congr 1
    have : (off % 8 = off' % 8) ↔ (off' = off) := by omega
    exact decide_eq_decide.2 this
  · rw [List.getD_eq_getElem?_getD, List.getElem?_set_ne (by omega), ← List.getD_eq_getElem?_getD]
    have : off' ≠ off := by intro e; rw [e] at hi; exact hi rfl
    simp [this]

theorem getD_zipWith (f : Nat → Nat → Nat) (hf : f 0 0 = 0) {a b : Chunk} (ha : Ok a) (hb : Ok b)
    (i : Nat) : (List.zipWith f a b).getD i 0 = f (a.getD i 0) (b.getD i 0) := by
  simp only [List.getD_eq_getElem?_getD, List.getElem?_zipWith]
  by_cases h : i < 128
  · rw [List.getElem?_eq_getElem (by rw [ha.len]; exact h),
      List.getElem?_eq_getElem (by rw [hb.len]; exact h)]; rfl
  · rw [List.getElem?_eq_none (by rw [ha.len]; omega),
      List.getElem?_eq_none (by rw [hb.len]; omega)]
    simp [hf]

theorem ok_or {a b : Chunk} (ha : Ok a) (hb : Ok b) : Ok (List.zipWith (· ||| ·) a b) := by
  refine ⟨by rw [List.length_zipWith, ha.len, hb.len]; rfl, ?_⟩
  intro x hx
  obtain ⟨i, hi, rfl⟩ := List.mem_iff_getElem.1 hx
  rw [List.getElem_zipWith]
  exact Nat.or_lt_two_pow (n := 8) (ha.byte _ (List.getElem_mem ..)) (hb.byte _ (List.getElem_mem ..))

theorem ok_and {a b : Chunk} (ha : Ok a) (hb : Ok b) : Ok (List.zipWith (· &&& ·) a b) := by
  refine ⟨by rw [List.length_zipWith, ha.len, hb.len]; rfl, ?_⟩
  intro x hx
  obtain ⟨i, hi, rfl⟩ := List.mem_iff_getElem.1 hx
  rw [List.getElem_zipWith]
  exact Nat.lt_of_le_of_lt Nat.and_le_left (ha.byte _ (List.getElem_mem ..))

theorem bit_or {a b : Chunk} (ha : Ok a) (hb : Ok b) (off : Nat) :
    bit (List.zipWith (· ||| ·) a b) off = (bit a off || bit b off) := by
  unfold bit
  rw [getD_zipWith _ (by decide) ha hb, Nat.testBit_or]

theorem bit_and {a b : Chunk} (ha : Ok a) (hb : Ok b) (off : Nat) :
    bit (List.zipWith (· &&& ·) a b) off = (bit a off && bit b off) := by
  unfold bit
  rw [getD_zipWith _ (by decide) ha hb, Nat.testBit_and]

/-- A chunk all of whose bytes are zero has no bits, and conversely. -/
theorem zero_iff {c : Chunk} (h : Ok c) :
    (c.all (· == 0)) = true ↔ ∀ off, bit c off = false := by
  constructor
  · intro ha off
    have : c.getD (off / 8) 0 = 0 := by
      rw [List.getD_eq_getElem?_getD]
      cases hi : c[off / 8]? with
      | none => rfl
      | some b =>
        have := List.all_eq_true.1 ha b (List.mem_of_getElem? hi)
        simpa using this
    unfold bit; rw [this]; simp
  · intro ho
    refine List.all_eq_true.2 ?_
    intro b hb
    obtain ⟨i, hi, rfl⟩ := List.mem_iff_getElem.1 hb
    have hz : c[i] = 0 := by
      apply Nat.eq_of_testBit_eq
      intro j
      by_cases hj : j < 8
      · have := ho (8 * i + j)
        unfold bit at this
        have e1 : (8 * i + j) / 8 = i := by omega
        have e2 : (8 * i + j) % 8 = j := by omega
        rw [e1, e2, List.getD_eq_getElem?_getD, List.getElem?_eq_getElem hi] at this
        simpa using this
      · have h1 := h.byte _ hb
        rw [Nat.testBit_lt_two_pow (Nat.lt_of_lt_of_le h1 (Nat.pow_le_pow_right (n := 2) (by omega) (by omega : 8 ≤ j)))]
        simp
    simpa using hz

theorem testBit_255 (j : Nat) : (255 : Nat).testBit j = decide (j < 8) :=
  Nat.testBit_two_pow_sub_one 8 j

theorem testBit_startMask (x j : Nat) : (u8 (255 <<< x)).testBit j = decide (x ≤ j ∧ j < 8) := by
  unfold u8
  rw [show (256 : Nat) = 2 ^ 8 from rfl, Nat.testBit_mod_two_pow, Nat.testBit_shiftLeft,
    testBit_255]
  by_cases h1 : j < 8 <;> by_cases h2 : x ≤ j <;> simp [h1, h2] <;> omega

theorem testBit_endMask (x j : Nat) (hx : x < 8) :
    (u8 (255 >>> (7 - x))).testBit j = decide (j ≤ x) := by
  unfold u8
  rw [show (256 : Nat) = 2 ^ 8 from rfl, Nat.testBit_mod_two_pow, Nat.testBit_shiftRight,
    testBit_255]
  by_cases h1 : j < 8 <;> by_cases h2 : j ≤ x <;> simp [h1, h2] <;> omega

end Verif.KeyBitmap
