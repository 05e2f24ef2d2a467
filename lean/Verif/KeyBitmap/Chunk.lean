import Verif.KeyBitmap.Lemmas

/-!
# The 64-bit mode: membership and searches
-/

namespace Verif.KeyBitmap

set_option linter.unusedSimpArgs false

/-- Membership. -/
def hasT (t : List (Nat × Chunk)) (v : Nat) : Bool :=
  match find (v / 1024) t with
  | none => false
  | some c => bit c (v % 1024)

/-- The keys of a tree: chunk numbers of 64-bit values. -/
def okKey (k : Nat) : Prop := k < 18014398509481984

theorem natOrder : Order Nat.blt okKey where
  irrefl a := by
    rw [Bool.eq_false_iff, ne_eq, Nat.blt_eq]; omega
  trans a b c _ _ _ h1 h2 := by
    rw [Nat.blt_eq] at *; omega
  total a b _ _ h1 h2 := by
    rw [Bool.eq_false_iff, ne_eq, Nat.blt_eq] at h2
    rw [Nat.blt_eq]; omega

/-- The invariant of a tree. -/
structure TInv (t : List (Nat × Chunk)) : Prop where
  sorted : Sorted Nat.blt okKey t
  chunk : ∀ e ∈ t, Ok e.2
  some : ∀ e ∈ t, ∃ off, bit e.2 off = true

/-- The invariant of a bitmap. -/
structure BInv (bm : Bm) : Prop where
  tree : TInv bm.tree
  fin : bm.finalized = true → bm.chunks = bm.tree.map (·.1)

theorem TInv.find_ok {t : List (Nat × Chunk)} (h : TInv t) {k : Nat} {c : Chunk}
    (hf : find k t = .some c) : Ok c := h.chunk _ (find_some_mem hf)

theorem tinv_set {t : List (Nat × Chunk)} (h : TInv t) {k : Nat} {c : Chunk} (hk : okKey k)
    (hc : Ok c) (hs : ∃ off, bit c off = true) : TInv (set Nat.blt k c t) where
  sorted := sorted_set natOrder h.sorted hk
  chunk e he := by
    rcases mem_set he with he | he
    · rw [he]; exact hc
    · exact h.chunk e he
  some e he := by
    rcases mem_set he with he | he
    · rw [he]; exact hs
    · exact h.some e he

theorem hasT_set (t : List (Nat × Chunk)) (k : Nat) (c : Chunk) (v : Nat) :
    hasT (set Nat.blt k c t) v = if v / 1024 = k then bit c (v % 1024) else hasT t v := by
  unfold hasT
  rw [find_set]
  by_cases h : v / 1024 = k
  · rw [if_pos h, if_pos h]
  · rw [if_neg h, if_neg h]

theorem test_eq (bm : Bm) (v : Nat) : test bm v = hasT bm.tree v := by
  unfold test hasT
  simp only [shr_10, shr_3, and_low, and_7, and_bit]
  rfl

/-- Adding one value to a tree. -/
theorem add_inv {t : List (Nat × Chunk)} (h : TInv t) {v : Nat} (hv : v < 18446744073709551616)
    {c : Chunk} (hc : Ok c) (hm : ∀ off, bit c off = hasT t (v / 1024 * 1024 + off % 1024) ∨ 1024 ≤ off) :
    TInv (set Nat.blt (v / 1024) (orByte c (v % 1024 / 8) (1 <<< (v % 1024 % 8))) t) ∧
    ∀ w, hasT (set Nat.blt (v / 1024) (orByte c (v % 1024 / 8) (1 <<< (v % 1024 % 8))) t) w =
      (hasT t w || decide (w = v)) := by
  have h1 : v % 1024 < 1024 := Nat.mod_lt _ (by omega)
  constructor
  · refine tinv_set h (by unfold okKey; omega) (ok_orByte hc _ _ (Nat.mod_lt _ (by omega)))
      ⟨v % 1024, ?_⟩
    rw [bit_orByte hc _ _ h1]; simp
  · intro w
    rw [hasT_set]
    by_cases hw : w / 1024 = v / 1024
    · rw [if_pos hw, bit_orByte hc _ _ h1]
      rcases hm (w % 1024) with e | e
      · rw [e]
        have e1 : v / 1024 * 1024 + w % 1024 % 1024 = w := by omega
        rw [e1]
        congr 1
        exact decide_eq_decide.2 (by omega)
      · omega
    · rw [if_neg hw]
      have : w ≠ v := by intro e; rw [e] at hw; exact hw rfl
      simp [this]

theorem empty_add {t : List (Nat × Chunk)} {v : Nat} (hf : find (v / 1024) t = none) (off : Nat) :
    bit emptyChunk off = hasT t (v / 1024 * 1024 + off % 1024) ∨ 1024 ≤ off := by
  left
  unfold hasT
  have : (v / 1024 * 1024 + off % 1024) / 1024 = v / 1024 := by omega
  rw [this, hf, bit_empty]

theorem entry_add {t : List (Nat × Chunk)} {v : Nat} {c : Chunk} (hf : find (v / 1024) t = some c)
    (off : Nat) : bit c off = hasT t (v / 1024 * 1024 + off % 1024) ∨ 1024 ≤ off := by
  by_cases h : 1024 ≤ off
  · exact .inr h
  · left
    unfold hasT
    have : (v / 1024 * 1024 + off % 1024) / 1024 = v / 1024 := by omega
    rw [this, hf]
    have : (v / 1024 * 1024 + off % 1024) % 1024 = off := by omega
    simp only [this]

theorem insert_spec {bm : Bm} (h : BInv bm) {v : Nat} (hv : v < 18446744073709551616) :
    BInv (insert bm v) ∧
    ∀ w, hasT (insert bm v).tree w = (hasT bm.tree w || decide (w = v)) := by
  unfold insert
  simp only [shr_10, shr_3, and_low, and_7]
  cases hf : find (v / 1024) bm.tree with
  | none =>
    have := add_inv h.tree hv ok_empty (empty_add hf)
    exact ⟨⟨this.1, by simp⟩, this.2⟩
  | some c =>
    have := add_inv h.tree hv (h.tree.find_ok hf) (entry_add hf)
    exact ⟨⟨this.1, by simp⟩, this.2⟩

theorem emit_spec {bm : Bm} (h : BInv bm) {v : Nat} (hv : v < 18446744073709551616) :
    BInv (emit bm v).1 ∧
    (∀ w, hasT (emit bm v).1.tree w = (hasT bm.tree w || decide (w = v))) ∧
    (emit bm v).2 = !hasT bm.tree v := by
  unfold emit
  simp only [shr_10, shr_3, and_low, and_7]
  cases hf : find (v / 1024) bm.tree with
  | none =>
    have := add_inv h.tree hv ok_empty (empty_add hf)
    exact ⟨⟨this.1, by simp⟩, this.2, by simp [hasT, hf]⟩
  | some c =>
    have hb : ((c.getD (v % 1024 / 8) 0 &&& 1 <<< (v % 1024 % 8)) != 0) = hasT bm.tree v := by
      rw [and_bit]; unfold hasT; rw [hf]; rfl
    simp only [hb]
    cases hh : hasT bm.tree v with
    | true =>
      refine ⟨h, ?_, rfl⟩
      intro w
      by_cases hw : w = v
      · subst hw; simp [hh]
      · simp [hw]
    | false =>
      have := add_inv h.tree hv (h.tree.find_ok hf) (entry_add hf)
      exact ⟨⟨this.1, by simp⟩, this.2, rfl⟩

theorem isEmpty_spec {bm : Bm} (h : BInv bm) :
    isEmpty bm = true ↔ ∀ v, v < 18446744073709551616 → hasT bm.tree v = false := by
  unfold isEmpty
  cases ht : bm.tree with
  | nil => simp [hasT, find]
  | cons e t =>
    obtain ⟨k, c⟩ := e
    have hi := h.tree
    rw [ht] at hi
    obtain ⟨off, hoff⟩ := hi.some (k, c) (List.mem_cons_self ..)
    have hc := hi.chunk (k, c) (List.mem_cons_self ..)
    have hk : k < 18014398509481984 := hi.sorted.2 (k, c) (List.mem_cons_self ..)
    have ho := hc.bit_lt hoff
    constructor
    · intro h; cases h
    · intro hn
      have := hn (k * 1024 + off) (by omega)
      unfold hasT find at this
      have e1 : (k * 1024 + off) / 1024 = k := by omega
      have e2 : (k * 1024 + off) % 1024 = off := by omega
      rw [e1, if_pos rfl, e2] at this
      have hoff : bit c off = true := hoff
      simp only [hoff] at this; cases this

/-! ### Union -/

theorem unionOne_spec {t : List (Nat × Chunk)} (h : TInv t) {e : Nat × Chunk} (hk : okKey e.1)
    (hc : Ok e.2) (hs : ∃ off, bit e.2 off = true) :
    TInv (unionOne t e) ∧ ∀ w, hasT (unionOne t e) w =
      (hasT t w || (decide (w / 1024 = e.1) && bit e.2 (w % 1024))) := by
  unfold unionOne
  cases hf : find e.1 t with
  | none =>
    refine ⟨tinv_set h hk hc hs, ?_⟩
    intro w
    rw [hasT_set]
    by_cases hw : w / 1024 = e.1
    · rw [if_pos hw]
      have : hasT t w = false := by unfold hasT; rw [hw, hf]
      simp [this, hw]
    · rw [if_neg hw]; simp [hw]
  | some a =>
    have ha := h.find_ok hf
    refine ⟨tinv_set h hk (ok_or ha hc) ?_, ?_⟩
    · obtain ⟨off, ho⟩ := hs
      exact ⟨off, by rw [bit_or ha hc, ho, Bool.or_true]⟩
    · intro w
      rw [hasT_set]
      by_cases hw : w / 1024 = e.1
      · rw [if_pos hw, bit_or ha hc]
        have : hasT t w = bit a (w % 1024) := by unfold hasT; rw [hw, hf]
        simp [this, hw]
      · rw [if_neg hw]; simp [hw]

theorem foldl_union (l : List (Nat × Chunk)) : ∀ {t : List (Nat × Chunk)}, TInv t →
    (∀ e ∈ l, okKey e.1 ∧ Ok e.2 ∧ ∃ off, bit e.2 off = true) →
    TInv (l.foldl unionOne t) ∧ ∀ w, hasT (l.foldl unionOne t) w =
      (hasT t w || l.any (fun e => decide (w / 1024 = e.1) && bit e.2 (w % 1024))) := by
  induction l with
  | nil => intro t h _; exact ⟨h, by simp⟩
  | cons e l ih =>
    intro t h hl
    obtain ⟨h1, h2, h3⟩ := hl e (List.mem_cons_self ..)
    obtain ⟨hi, hm⟩ := unionOne_spec h h1 h2 h3
    obtain ⟨hi', hm'⟩ := ih hi (fun e he => hl e (List.mem_cons_of_mem _ he))
    refine ⟨hi', ?_⟩
    intro w
    rw [List.foldl_cons, hm', hm, List.any_cons, Bool.or_assoc]

theorem any_has {t : List (Nat × Chunk)} (h : TInv t) (w : Nat) :
    t.any (fun e => decide (w / 1024 = e.1) && bit e.2 (w % 1024)) = hasT t w := by
  rw [Bool.eq_iff_iff, List.any_eq_true]
  unfold hasT
  constructor
  · rintro ⟨⟨k, c⟩, he, hx⟩
    simp only [Bool.and_eq_true, decide_eq_true_eq] at hx
    obtain ⟨rfl, hx⟩ := hx
    rw [mem_find (sorted_nodup natOrder h.sorted) he]
    exact hx
  · cases hf : find (w / 1024) t with
    | none => intro h; cases h
    | some c =>
      intro hb
      exact ⟨_, find_some_mem hf, by simp [hb]⟩

theorem union_spec {a b : Bm} (ha : BInv a) (hb : BInv b) :
    BInv (union a b) ∧ ∀ w, hasT (union a b).tree w = (hasT a.tree w || hasT b.tree w) := by
  have := foldl_union b.tree ha.tree
    (fun e he => ⟨hb.tree.sorted.2 e he, hb.tree.chunk e he, hb.tree.some e he⟩)
  refine ⟨⟨this.1, by simp [union]⟩, ?_⟩
  intro w
  show hasT (b.tree.foldl unionOne a.tree) w = _
  rw [this.2, any_has hb.tree]

/-! ### Intersection -/

theorem find_map {K V : Type} [DecidableEq K] (f : K × V → V) (k : K) (t : List (K × V)) :
    find k (t.map (fun e => (e.1, f e))) = (find k t).map (fun v => f (k, v)) := by
  induction t with
  | nil => rfl
  | cons e t ih =>
    obtain ⟨k1, v1⟩ := e
    simp only [List.map_cons, find]
    split
    · rename_i h; subst h; rfl
    · exact ih

theorem emptied_iff {b : List (Nat × Chunk)} (hb : TInv b) {k : Nat} {c : Chunk} (hc : Ok c) :
    emptied b (k, c) = true ↔ ∀ off, off < 1024 → (bit c off && hasT b (k * 1024 + off)) = false := by
  unfold emptied
  have hh : ∀ off, off < 1024 → hasT b (k * 1024 + off) = match find k b with
      | none => false
      | some c => bit c off := by
    intro off ho
    unfold hasT
    have e1 : (k * 1024 + off) / 1024 = k := by omega
    have e2 : (k * 1024 + off) % 1024 = off := by omega
    rw [e1, e2]
  cases hf : find k b with
  | none =>
    simp only [hf] at hh
    simp only [true_iff]
    intro off ho
    rw [hh off ho, Bool.and_false]
  | some d =>
    simp only [hf] at hh
    have hd := hb.find_ok hf
    simp only [zero_iff (ok_and hc hd)]
    constructor
    · intro h off ho
      rw [hh off ho, ← bit_and hc hd]; exact h off
    · intro h off
      by_cases ho : off < 1024
      · rw [bit_and hc hd, ← hh off ho]; exact h off ho
      · cases hx : bit (List.zipWith (· &&& ·) c d) off with
        | false => rfl
        | true => exact absurd ((ok_and hc hd).bit_lt hx) ho

theorem intersect_spec {a b : Bm} (ha : BInv a) (hb : BInv b) :
    BInv (intersect a b) ∧
    ∀ w, hasT (intersect a b).tree w = (hasT a.tree w && hasT b.tree w) := by
  have hnd := sorted_nodup natOrder ha.tree.sorted
  have hdel : ∀ k c, find k a.tree = some c →
      (k ∈ (a.tree.filter (emptied b.tree)).map (·.1) ↔ emptied b.tree (k, c) = true) := by
    intro k c hf
    constructor
    · intro hm
      obtain ⟨⟨k', c'⟩, hm', rfl⟩ := List.mem_map.1 hm
      obtain ⟨h1, h2⟩ := List.mem_filter.1 hm'
      rw [mem_find hnd h1] at hf
      cases hf; exact h2
    · intro he
      exact List.mem_map.2 ⟨(k, c), List.mem_filter.2 ⟨find_some_mem hf, he⟩, rfl⟩
  have hand : ∀ k c, find k a.tree = some c → emptied b.tree (k, c) = false →
      ∃ d, find k b.tree = some d ∧ andChunk b.tree (k, c) = List.zipWith (· &&& ·) c d := by
    intro k c _ he
    unfold emptied at he
    unfold andChunk
    cases hf : find k b.tree with
    | none => simp only [hf] at he; cases he
    | some d => exact ⟨d, rfl, rfl⟩
  have hfind : ∀ k, find k (intersect a b).tree = (find k a.tree).bind (fun c =>
      if emptied b.tree (k, c) = true then none else some (andChunk b.tree (k, c))) := by
    intro k
    show find k (((a.tree.filter (emptied b.tree)).map (·.1)).foldl (fun t k => delete k t)
      (a.tree.map (fun e => (e.1, andChunk b.tree e)))) = _
    rw [find_foldl_delete, find_map]
    cases hf : find k a.tree with
    | none => simp
    | some c =>
      simp only [hdel k c hf, Option.map_some, Option.bind_some]
  have hsorted : Sorted Nat.blt okKey (intersect a b).tree := by
    refine sorted_foldl_delete _ ⟨?_, ?_⟩
    · rw [List.pairwise_map]; exact ha.tree.sorted.1
    · intro e he
      obtain ⟨e', he', rfl⟩ := List.mem_map.1 he
      exact ha.tree.sorted.2 e' he'
  have hent : ∀ e ∈ (intersect a b).tree, ∃ c d, find e.1 a.tree = some c ∧
      find e.1 b.tree = some d ∧ e.2 = List.zipWith (· &&& ·) c d ∧
      emptied b.tree (e.1, c) = false := by
    intro e he
    have h1 : find e.1 (intersect a b).tree = some e.2 :=
      mem_find (sorted_nodup natOrder hsorted) (by exact he)
    rw [hfind] at h1
    cases hf : find e.1 a.tree with
    | none => rw [hf] at h1; cases h1
    | some c =>
      rw [hf, Option.bind_some] at h1
      split at h1
      · cases h1
      · rename_i hne
        have hne : emptied b.tree (e.1, c) = false := by simpa using hne
        obtain ⟨d, hd, hand⟩ := hand e.1 c hf hne
        rw [hand, Option.some.injEq] at h1
        exact ⟨c, d, rfl, hd, h1.symm, hne⟩
  refine ⟨⟨⟨hsorted, ?_, ?_⟩, by simp [intersect]⟩, ?_⟩
  · intro e he
    obtain ⟨c, d, h1, h2, h3, _⟩ := hent e he
    rw [h3]
    exact ok_and (ha.tree.find_ok h1) (hb.tree.find_ok h2)
  · intro e he
    obtain ⟨c, d, h1, h2, h3, h4⟩ := hent e he
    rw [h3]
    unfold emptied at h4
    simp only [h2] at h4
    have hok := ok_and (ha.tree.find_ok h1) (hb.tree.find_ok h2)
    apply Classical.byContradiction
    intro hx
    have hx : ∀ off, bit (List.zipWith (· &&& ·) c d) off = false := by
      intro off
      cases hb : bit (List.zipWith (· &&& ·) c d) off with
      | false => rfl
      | true => exact absurd ⟨off, hb⟩ hx
    rw [(zero_iff hok).2 hx] at h4; cases h4
  · intro w
    have hw : w / 1024 * 1024 + w % 1024 = w := by omega
    have hw2 : w % 1024 < 1024 := by omega
    show (match find (w / 1024) (intersect a b).tree with
      | none => false
      | some c => bit c (w % 1024)) = ((match find (w / 1024) a.tree with
      | none => false
      | some c => bit c (w % 1024)) && hasT b.tree w)
    rw [hfind]
    cases hf : find (w / 1024) a.tree with
    | none => rfl
    | some c =>
      simp only [Option.bind_some]
      cases he : emptied b.tree (w / 1024, c) with
      | true =>
        have := (emptied_iff hb.tree (ha.tree.find_ok hf)).1 he (w % 1024) hw2
        rw [hw] at this
        simp only [if_true]
        exact this.symm
      | false =>
        obtain ⟨d, hd, hand⟩ := hand _ c hf he
        simp only [Bool.false_eq_true, if_false, hand]
        rw [bit_and (ha.tree.find_ok hf) (hb.tree.find_ok hd)]
        unfold hasT
        rw [hd]

/-! ### Finalizing -/

theorem finalize_tree (bm : Bm) : (finalize bm).tree = bm.tree := by
  unfold finalize; split <;> rfl

theorem finalize_chunks {bm : Bm} (h : BInv bm) : (finalize bm).chunks = bm.tree.map (·.1) := by
  unfold finalize
  split
  · rename_i hf; exact h.fin hf
  · rfl

theorem finalize_inv {bm : Bm} (h : BInv bm) : BInv (finalize bm) :=
  ⟨by rw [finalize_tree]; exact h.tree, fun _ => by rw [finalize_chunks h, finalize_tree]⟩

/-! ### Ranges -/

theorem mask_bit (i j s e sm em : Nat) (hj : j < 8) :
    ((if i = e then (if i = s then sm else 255) &&& em else if i = s then sm else 255).testBit j
      = true) ↔ ((i = s → sm.testBit j = true) ∧ (i = e → em.testBit j = true)) := by
  have h : (255 : Nat).testBit j = true := by rw [testBit_255]; simpa using hj
  by_cases h1 : i = e <;> by_cases h2 : i = s <;> simp [h1, h2, h, Nat.testBit_and] <;> grind

theorem chunkInRange_iff {c : Chunk} (hc : Ok c) {chunk low high : Nat} (hlh : low < high)
    (h1 : low / 1024 ≤ chunk) (h2 : chunk ≤ (high - 1) / 1024) :
    chunkInRange c chunk (low / 1024) ((high - 1) / 1024) low high = true ↔
    ∃ off, bit c off = true ∧ low ≤ chunk * 1024 + off ∧ chunk * 1024 + off < high := by
  unfold chunkInRange
  simp only [and_low, and_7, shr_3, List.any_eq_true, List.mem_range'_1, and_ne_zero]
  have hm : ∀ i j : Nat, j < 8 →
      (((if i = (if chunk = (high - 1) / 1024 then (high - 1) % 1024 / 8 else BYTES - 1) then
          (if i = (if chunk = low / 1024 then low % 1024 / 8 else 0) then
            (if chunk = low / 1024 then u8 (255 <<< (low % 8)) else 255) else 255) &&&
          (if chunk = (high - 1) / 1024 then u8 (255 >>> (7 - (high - 1) % 8)) else 255)
        else (if i = (if chunk = low / 1024 then low % 1024 / 8 else 0) then
            (if chunk = low / 1024 then u8 (255 <<< (low % 8)) else 255) else 255)).testBit j = true) ↔
      ((chunk = low / 1024 → i = low % 1024 / 8 → low % 8 ≤ j) ∧
       (chunk = (high - 1) / 1024 → i = (high - 1) % 1024 / 8 → j ≤ (high - 1) % 8))) := by
    intro i j hj
    rw [mask_bit _ _ _ _ _ _ hj]
    have h7 : (high - 1) % 8 < 8 := Nat.mod_lt _ (by omega)
    by_cases a1 : chunk = (high - 1) / 1024
    · rw [if_pos a1, if_pos a1, testBit_endMask _ _ h7]
      by_cases a2 : chunk = low / 1024
      · rw [if_pos a2, if_pos a2, testBit_startMask]
        simp only [decide_eq_true_eq]
        grind
      · rw [if_neg a2, if_neg a2, testBit_255]
        simp only [decide_eq_true_eq]
        grind
    · rw [if_neg a1, if_neg a1, testBit_255]
      by_cases a2 : chunk = low / 1024
      · rw [if_pos a2, if_pos a2, testBit_startMask]
        simp only [decide_eq_true_eq]
        grind
      · rw [if_neg a2, if_neg a2, testBit_255]
        simp only [decide_eq_true_eq]
        grind
  constructor
  · rintro ⟨i, ⟨hi1, hi2⟩, j, hj, hmask⟩
    have hj8 : j < 8 := by
      apply Decidable.byContradiction
      intro hn
      rw [Nat.testBit_lt_two_pow (Nat.lt_of_lt_of_le (hc.getD_lt i)
        (Nat.pow_le_pow_right (n := 2) (by omega) (by omega : 8 ≤ j)))] at hj
      cases hj
    obtain ⟨m1, m2⟩ := (hm i j hj8).1 hmask
    refine ⟨8 * i + j, ?_, ?_, ?_⟩
    · unfold bit
      have e1 : (8 * i + j) / 8 = i := by omega
      have e2 : (8 * i + j) % 8 = j := by omega
      rw [e1, e2]; exact hj
    · by_cases a2 : chunk = low / 1024
      · simp only [a2, if_true] at hi1
        have := m1 a2
        omega
      · omega
    · by_cases a1 : chunk = (high - 1) / 1024
      · have e : (if chunk = (high - 1) / 1024 then (high - 1) % 1024 / 8 else BYTES - 1)
          = (high - 1) % 1024 / 8 := if_pos a1
        rw [e] at hi2
        have := m2 a1
        omega
      · have e : (if chunk = (high - 1) / 1024 then (high - 1) % 1024 / 8 else BYTES - 1)
          = 127 := if_neg a1
        rw [e] at hi2
        omega
  · rintro ⟨off, hoff, hlo, hhi⟩
    have ho := hc.bit_lt hoff
    have hr1 : (if chunk = low / 1024 then low % 1024 / 8 else 0) ≤ off / 8 := by
      split <;> omega
    have hr2 : off / 8 ≤ (if chunk = (high - 1) / 1024 then (high - 1) % 1024 / 8 else BYTES - 1) := by
      split
      · omega
      · simp only [BYTES]; omega
    refine ⟨off / 8, ⟨hr1, by omega⟩, off % 8, hoff, (hm _ _ (by omega)).2 ⟨?_, ?_⟩⟩
    · intro a b; omega
    · intro a b; omega

theorem rangeLoop_spec {t : List (Nat × Chunk)} (ht : TInv t) {low high : Nat} (hlh : low < high)
    (l : List Nat) (hl : ∀ k ∈ l, k ∈ t.map (·.1)) (hs : l.Pairwise (fun a b => Nat.blt a b = true))
    (hge : ∀ k ∈ l, low / 1024 ≤ k) :
    ∃ r, rangeLoop t (low / 1024) ((high - 1) / 1024) low high l = some r ∧
      (r = true ↔ ∃ v, hasT t v = true ∧ v / 1024 ∈ l ∧ low ≤ v ∧ v < high) := by
  induction l with
  | nil => exact ⟨false, rfl, by simp⟩
  | cons k l ih =>
    rw [List.pairwise_cons] at hs
    unfold rangeLoop
    by_cases hk : k > (high - 1) / 1024
    · rw [if_pos hk]
      refine ⟨false, rfl, ?_⟩
      simp only [Bool.false_eq_true, false_iff]
      rintro ⟨v, _, hv, h1, h2⟩
      rcases List.mem_cons.1 hv with hv | hv
      · omega
      · have := hs.1 _ hv
        simp only [Nat.blt_eq] at this
        omega
    · rw [if_neg hk]
      obtain ⟨c, hf⟩ : ∃ c, find k t = some c :=
        Option.isSome_iff_exists.1 (find_isSome.2 (hl k (List.mem_cons_self ..)))
      have hc := ht.find_ok hf
      have hcr := chunkInRange_iff hc hlh (hge k (List.mem_cons_self ..)) (by omega : k ≤ (high - 1) / 1024)
      simp only [hf]
      split
      · rename_i hx
        obtain ⟨off, h1, h2, h3⟩ := hcr.1 hx
        have ho := hc.bit_lt h1
        refine ⟨true, rfl, ?_⟩
        simp only [true_iff]
        refine ⟨k * 1024 + off, ?_, ?_, h2, h3⟩
        · unfold hasT
          have e1 : (k * 1024 + off) / 1024 = k := by omega
          have e2 : (k * 1024 + off) % 1024 = off := by omega
          rw [e1, hf, e2]; exact h1
        · have e1 : (k * 1024 + off) / 1024 = k := by omega
          rw [e1]; exact List.mem_cons_self ..
      · rename_i hx
        obtain ⟨r, hr, hiff⟩ := ih (fun k hk => hl k (List.mem_cons_of_mem _ hk)) hs.2
          (fun k hk => hge k (List.mem_cons_of_mem _ hk))
        refine ⟨r, hr, ?_⟩
        rw [hiff]
        constructor
        · rintro ⟨v, h1, h2, h3⟩
          exact ⟨v, h1, List.mem_cons_of_mem _ h2, h3⟩
        · rintro ⟨v, h1, h2, h3, h4⟩
          rcases List.mem_cons.1 h2 with h2 | h2
          · exfalso
            apply hx
            apply hcr.2
            refine ⟨v % 1024, ?_, by omega, by omega⟩
            unfold hasT at h1
            rw [h2, hf] at h1
            exact h1
          · exact ⟨v, h1, h2, h3, h4⟩

/-- The part of the array the search leaves. -/
theorem seek_spec {bm : Bm} (h : BInv bm) (x : Nat) (hx : okKey x) :
    ∃ r, lowerBound (finalize bm).chunks (fun c => Nat.blt c x) (finalize bm).chunks.length 0
        (finalize bm).chunks.length = some r ∧
      (∀ k ∈ (finalize bm).chunks.drop r, k ∈ bm.tree.map (·.1)) ∧
      ((finalize bm).chunks.drop r).Pairwise (fun a b => Nat.blt a b = true) ∧
      (∀ k ∈ (finalize bm).chunks.drop r, x ≤ k) ∧
      (∀ k, k ∈ bm.tree.map (·.1) → x ≤ k → k ∈ (finalize bm).chunks.drop r) := by
  rw [finalize_chunks h]
  have hs : (bm.tree.map (·.1)).Pairwise (fun a b => Nat.blt a b = true) := by
    rw [List.pairwise_map]; exact h.tree.sorted.1
  obtain ⟨r, h1, h2, h3, h4⟩ := lowerBound_drop natOrder (bm.tree.map (·.1)) x hs (by
    intro a ha
    obtain ⟨e, he, rfl⟩ := List.mem_map.1 ha
    exact h.tree.sorted.2 e he) hx
  refine ⟨r, h1, fun k hk => List.mem_of_mem_drop hk, hs.drop, ?_, ?_⟩
  · intro k hk
    have := h4 k hk
    rw [Bool.eq_false_iff] at this
    simp only [ne_eq, Nat.blt_eq] at this
    omega
  · intro k hk hge
    rw [← List.take_append_drop r (bm.tree.map (·.1)), List.mem_append] at hk
    rcases hk with hk | hk
    · have := h3 k hk
      simp only [Nat.blt_eq] at this
      omega
    · exact hk

theorem hasT_key {t : List (Nat × Chunk)} {v : Nat} (h : hasT t v = true) :
    v / 1024 ∈ t.map (·.1) := by
  rw [← find_isSome]
  unfold hasT at h
  cases hf : find (v / 1024) t with
  | none => rw [hf] at h; cases h
  | some c => rfl

theorem hasT_lt {t : List (Nat × Chunk)} (ht : TInv t) {v : Nat} (h : hasT t v = true) :
    v < 18446744073709551616 := by
  obtain ⟨e, he, h2⟩ := List.mem_map.1 (hasT_key h)
  have : e.1 < 18014398509481984 := ht.sorted.2 e he
  omega

theorem range_spec {bm : Bm} (h : BInv bm) {low high : Nat} (hl : low < 18446744073709551616) :
    BInv (rangeIsValid bm low high).1 ∧ (rangeIsValid bm low high).1.tree = bm.tree ∧
    ∃ r, (rangeIsValid bm low high).2 = some r ∧
      (r = true ↔ ∃ v, hasT bm.tree v = true ∧ low ≤ v ∧ v < high) := by
  unfold rangeIsValid
  split
  · refine ⟨h, rfl, false, rfl, ?_⟩
    simp only [Bool.false_eq_true, false_iff]
    rintro ⟨v, _, h1, h2⟩; omega
  · rename_i hlh
    refine ⟨finalize_inv h, finalize_tree bm, ?_⟩
    simp only [shr_10, finalize_tree]
    obtain ⟨i, h1, h2, h3, h4, h5⟩ := seek_spec h (low / 1024) (by unfold okKey; omega)
    rw [h1, Option.bind_some]
    obtain ⟨r, hr, hiff⟩ := rangeLoop_spec h.tree (by omega : low < high) _ h2 h3 h4
    refine ⟨r, hr, ?_⟩
    rw [hiff]
    constructor
    · rintro ⟨v, a, _, b⟩; exact ⟨v, a, b⟩
    · rintro ⟨v, a, b, c⟩; exact ⟨v, a, h5 _ (hasT_key a) (by omega), b, c⟩

/-! ### The next member -/

theorem lowBit_spec (n : Nat) : ∀ mask r : Nat, mask ≠ 0 → mask < 2 ^ n →
    ∃ j, lowBit n mask r = r + j ∧ mask.testBit j = true ∧ ∀ i, i < j → mask.testBit i = false := by
  induction n with
  | zero => intro m r h1 h2; simp at h2; exact absurd h2 h1
  | succ n ih =>
    intro m r h1 h2
    unfold lowBit
    rw [show (1 : Nat) = 2 ^ 1 - 1 from rfl, Nat.and_two_pow_sub_one_eq_mod]
    split
    · rename_i hz
      have hne : m >>> 1 ≠ 0 := by
        rw [Nat.shiftRight_eq_div_pow]; omega
      have hlt : m >>> 1 < 2 ^ n := by
        rw [Nat.shiftRight_eq_div_pow]
        rw [Nat.pow_succ] at h2
        omega
      obtain ⟨j, e1, e2, e3⟩ := ih (m >>> 1) (r + 1) hne hlt
      refine ⟨j + 1, ?_, ?_, ?_⟩
      · show lowBit n (m >>> 1) (r + 1) = r + (j + 1)
        rw [e1]; omega
      · rw [Nat.testBit_shiftRight] at e2
        rw [Nat.add_comm]; exact e2
      · intro i hi
        cases i with
        | zero =>
          rw [Nat.testBit_zero]
          have : m % 2 = 0 := hz
          simp [this]
        | succ i =>
          have := e3 i (by omega)
          rw [Nat.testBit_shiftRight] at this
          rw [Nat.add_comm]; exact this
    · rename_i hz
      refine ⟨0, rfl, ?_, by intro i hi; omega⟩
      rw [Nat.testBit_zero]
      have : m % 2 = 1 := by
        have : ¬ m % 2 = 0 := hz
        omega
      simp [this]

/-- The offsets the loop still has to consider. -/
def Allowed (i mask off : Nat) : Prop := i < off / 8 ∨ (off / 8 = i ∧ mask.testBit (off % 8) = true)

theorem findNextLoop_spec {c : Chunk} (hc : Ok c) (n : Nat) : ∀ i mask : Nat, 128 ≤ n + i →
    (findNextLoop c n i mask = none → ∀ off, Allowed i mask off → bit c off = false) ∧
    (∀ o, findNextLoop c n i mask = some o → bit c o = true ∧ Allowed i mask o ∧
      ∀ off, off < o → Allowed i mask off → bit c off = false) := by
  induction n with
  | zero =>
    intro i mask h
    refine ⟨?_, ?_⟩
    · intro _ off ha
      cases hb : bit c off with
      | false => rfl
      | true =>
        have := hc.bit_lt hb
        rcases ha with ha | ha <;> omega
    · intro o ho; cases ho
  | succ n ih =>
    intro i mask h
    unfold findNextLoop
    have hbyte : c.getD i 0 < 256 := hc.getD_lt i
    have hbit : ∀ j, j < 8 → bit c (8 * i + j) = (c.getD i 0).testBit j := by
      intro j hj
      unfold bit
      have e1 : (8 * i + j) / 8 = i := by omega
      have e2 : (8 * i + j) % 8 = j := by omega
      rw [e1, e2]
    by_cases hz : mask &&& c.getD i 0 ≠ 0
    · simp only [hz, if_true, not_false_eq_true, ne_eq]
      refine ⟨by intro h; simp at h, ?_⟩
      intro o ho
      obtain ⟨j, e1, e2, e3⟩ := lowBit_spec 8 (mask &&& c.getD i 0) (i <<< 3) hz
        (Nat.lt_of_le_of_lt Nat.and_le_right hbyte)
      simp only [if_false, Option.some.injEq] at ho
      rw [e1, Nat.shiftLeft_eq] at ho
      have hj : j < 8 := by
        apply Decidable.byContradiction
        intro hn
        rw [Nat.testBit_lt_two_pow (Nat.lt_of_le_of_lt Nat.and_le_right (Nat.lt_of_lt_of_le hbyte
          (Nat.pow_le_pow_right (n := 2) (by omega) (by omega : 8 ≤ j))))] at e2
        cases e2
      have ho : o = 8 * i + j := by omega
      subst ho
      rw [Nat.testBit_and, Bool.and_eq_true] at e2
      have d1 : (8 * i + j) / 8 = i := by omega
      have d2 : (8 * i + j) % 8 = j := by omega
      refine ⟨by rw [hbit j hj]; exact e2.2, .inr ⟨d1, by rw [d2]; exact e2.1⟩, ?_⟩
      intro off hlt ha
      rcases ha with ha | ⟨ha, hm⟩
      · omega
      · have := e3 (off % 8) (by omega)
        rw [Nat.testBit_and, hm, Bool.true_and] at this
        have e : off = 8 * i + off % 8 := by omega
        rw [e, hbit _ (by omega)]; exact this
    · have hz : mask &&& c.getD i 0 = 0 := by simpa using hz
      simp only [hz, ne_eq, not_true_eq_false, if_false]
      have hskip : ∀ off, Allowed i mask off → bit c off = true → Allowed (i + 1) 255 off := by
        intro off ha hb
        rcases ha with ha | ⟨ha, hm⟩
        · by_cases e : off / 8 = i + 1
          · refine .inr ⟨e, ?_⟩
            rw [testBit_255]; simp; omega
          · exact .inl (by omega)
        · exfalso
          have : (mask &&& c.getD i 0).testBit (off % 8) = true := by
            rw [Nat.testBit_and, hm, Bool.true_and]
            unfold bit at hb
            rw [ha] at hb; exact hb
          rw [hz] at this; simp at this
      have hback : ∀ off, Allowed (i + 1) 255 off → Allowed i mask off := by
        intro off ha
        rcases ha with ha | ⟨ha, _⟩
        · exact .inl (by omega)
        · exact .inl (by omega)
      obtain ⟨g1, g2⟩ := ih (i + 1) 255 (by omega)
      refine ⟨?_, ?_⟩
      · intro hn off ha
        cases hb : bit c off with
        | false => rfl
        | true => rw [g1 hn off (hskip off ha hb)] at hb; cases hb
      · intro o ho
        obtain ⟨k1, k2, k3⟩ := g2 o ho
        refine ⟨k1, hback o k2, ?_⟩
        intro off hlt ha
        cases hb : bit c off with
        | false => rfl
        | true => rw [k3 off hlt (hskip off ha hb)] at hb; cases hb

theorem findNextOffset_spec {c : Chunk} (hc : Ok c) (m : Nat) (hm : m < 1024) :
    (findNextOffset c m = none → ∀ off, m ≤ off → bit c off = false) ∧
    (∀ o, findNextOffset c m = some o → bit c o = true ∧ m ≤ o ∧
      ∀ off, off < o → m ≤ off → bit c off = false) := by
  unfold findNextOffset
  simp only [and_7, shr_3, BYTES]
  have hal : ∀ off, Allowed (m / 8) (u8 (255 <<< (m % 8))) off ↔ m ≤ off := by
    intro off
    unfold Allowed
    rw [testBit_startMask]
    simp only [decide_eq_true_eq]
    omega
  obtain ⟨g1, g2⟩ := findNextLoop_spec hc (128 - m / 8) (m / 8) (u8 (255 <<< (m % 8))) (by omega)
  refine ⟨?_, ?_⟩
  · intro h off ho; exact g1 h off ((hal off).2 ho)
  · intro o ho
    obtain ⟨k1, k2, k3⟩ := g2 o ho
    exact ⟨k1, (hal o).1 k2, fun off h1 h2 => k3 off h1 ((hal off).2 h2)⟩

theorem nextLoop_spec {t : List (Nat × Chunk)} (ht : TInv t) (prev : Nat)
    (l : List Nat) (hl : ∀ k ∈ l, k ∈ t.map (·.1)) (hs : l.Pairwise (fun a b => Nat.blt a b = true))
    (hge : ∀ k ∈ l, prev / 1024 ≤ k) :
    ∃ r, nextLoop t (prev / 1024) (prev % 1024) l = some r ∧
      (r = none → ∀ v, hasT t v = true → v / 1024 ∈ l → v < prev) ∧
      (∀ x, r = some x → hasT t x = true ∧ prev ≤ x ∧
        ∀ v, hasT t v = true → v / 1024 ∈ l → prev ≤ v → x ≤ v) := by
  induction l with
  | nil => exact ⟨none, rfl, by simp, by simp⟩
  | cons k l ih =>
    rw [List.pairwise_cons] at hs
    unfold nextLoop
    obtain ⟨c, hf⟩ : ∃ c, find k t = some c :=
      Option.isSome_iff_exists.1 (find_isSome.2 (hl k (List.mem_cons_self ..)))
    have hc := ht.find_ok hf
    have hk := hge k (List.mem_cons_self ..)
    have hkok : k < 18014398509481984 := by
      obtain ⟨e, he, h2⟩ := List.mem_map.1 (hl k (List.mem_cons_self ..))
      rw [← h2]; exact ht.sorted.2 e he
    have hin : ∀ v, v / 1024 = k → hasT t v = bit c (v % 1024) := by
      intro v hv; unfold hasT; rw [hv, hf]
    have hm : (if k = prev / 1024 then prev % 1024 else 0) < 1024 := by split <;> omega
    have hge' : ∀ v, v / 1024 = k →
        ((if k = prev / 1024 then prev % 1024 else 0) ≤ v % 1024 ↔ prev ≤ v) := by
      intro v hv; split <;> omega
    obtain ⟨g1, g2⟩ := findNextOffset_spec hc _ hm
    simp only [hf]
    cases hn : findNextOffset c (if k = prev / 1024 then prev % 1024 else 0) with
    | none =>
      obtain ⟨r, hr, i1, i2⟩ := ih (fun k hk => hl k (List.mem_cons_of_mem _ hk)) hs.2
          (fun k hk => hge k (List.mem_cons_of_mem _ hk))
      have hno : ∀ v, hasT t v = true → v / 1024 = k → v < prev := by
        intro v hv hvk
        apply Decidable.byContradiction
        intro hlt
        rw [hin v hvk, g1 hn _ ((hge' v hvk).2 (by omega))] at hv
        cases hv
      refine ⟨r, hr, ?_, ?_⟩
      · intro h v hv hvl
        rcases List.mem_cons.1 hvl with e | e
        · exact hno v hv e
        · exact i1 h v hv e
      · intro x hx
        obtain ⟨j1, j2, j3⟩ := i2 x hx
        refine ⟨j1, j2, ?_⟩
        intro v hv hvl hp
        rcases List.mem_cons.1 hvl with e | e
        · have := hno v hv e; omega
        · exact j3 v hv e hp
    | some o =>
      obtain ⟨k1, k2, k3⟩ := g2 o hn
      have ho := hc.bit_lt k1
      have hval : ((k <<< 10) % 18446744073709551616 + o) % 18446744073709551616 = k * 1024 + o := by
        rw [Nat.shiftLeft_eq]; omega
      simp only [hval]
      refine ⟨_, rfl, (by intro h; cases h), ?_⟩
      intro x hx
      cases hx
      have e1 : (k * 1024 + o) / 1024 = k := by omega
      have e2 : (k * 1024 + o) % 1024 = o := by omega
      refine ⟨by rw [hin _ e1, e2]; exact k1, ?_, ?_⟩
      · rw [← hge' _ e1, e2]; exact k2
      · intro v hv hvl hp
        rcases List.mem_cons.1 hvl with e | e
        · apply Decidable.byContradiction
          intro hlt
          rw [hin v e, k3 (v % 1024) (by omega) ((hge' v e).2 hp)] at hv
          cases hv
        · have := hs.1 _ e
          simp only [Nat.blt_eq] at this
          omega

theorem next_spec {bm : Bm} (h : BInv bm) {prev : Nat} (hl : prev < 18446744073709551616) :
    BInv (getNext bm prev).1 ∧ (getNext bm prev).1.tree = bm.tree ∧
    ∃ r, (getNext bm prev).2 = some r ∧
      (r = none → ∀ v, hasT bm.tree v = true → v < prev) ∧
      (∀ x, r = some x → hasT bm.tree x = true ∧ prev ≤ x ∧
        ∀ v, hasT bm.tree v = true → prev ≤ v → x ≤ v) := by
  unfold getNext
  refine ⟨finalize_inv h, finalize_tree bm, ?_⟩
  simp only [shr_10, and_low, finalize_tree]
  obtain ⟨i, h1, h2, h3, h4, h5⟩ := seek_spec h (prev / 1024) (by unfold okKey; omega)
  rw [h1, Option.bind_some]
  obtain ⟨r, hr, i1, i2⟩ := nextLoop_spec h.tree prev _ h2 h3 h4
  refine ⟨r, hr, ?_, ?_⟩
  · intro hn v hv
    apply Decidable.byContradiction
    intro hlt
    exact hlt (i1 hn v hv (h5 _ (hasT_key hv) (by omega)))
  · intro x hx
    obtain ⟨j1, j2, j3⟩ := i2 x hx
    exact ⟨j1, j2, fun v hv hp => j3 v hv (h5 _ (hasT_key hv) (by omega)) hp⟩

theorem create_inv : BInv create :=
  ⟨⟨⟨List.Pairwise.nil, by intro e he; cases he⟩, (by intro e he; cases he),
    by intro e he; cases he⟩, by intro h; cases h⟩

end Verif.KeyBitmap
