import Verif.CheckExtents.Model

/-! # The check of the extents of a data file: properties -/

namespace Verif.CheckExtents

/-- Whether an extent holds a block. -/
def Ext.holds (n : Nat) (e : Ext) : Bool := decide (e.off ≤ n) && decide (n < e.off + e.len)

/-- From block `k` on, the extents cover the blocks below `N` once, and no other block. -/
def Tiles (k N : Nat) (l : List Ext) : Prop :=
  k ≤ N ∧ ∀ n, l.countP (Ext.holds n) = if k ≤ n ∧ n < N then 1 else 0

/-- The number of blocks of extents. -/
def total (l : List Ext) : Nat := (l.map Ext.len).sum

theorem tiles_nil (k N : Nat) : Tiles k N [] ↔ N = k := by
  constructor
  · rintro ⟨h, hc⟩
    have h1 := hc k
    rw [List.countP_nil] at h1
    split at h1 <;> omega
  · rintro rfl
    exact ⟨Nat.le_refl _, fun n => by rw [if_neg (by omega)]; rfl⟩

/-- An extent before the next block. -/
theorem tiles_excess {k N : Nat} {l : List Ext} {e : Ext} (he : e ∈ l) (hp : 0 < e.len)
    (h : e.off < k) : ¬ Tiles k N l := by
  rintro ⟨_, hc⟩
  have h1 := hc e.off
  rw [if_neg (by omega)] at h1
  have := List.countP_eq_zero.mp h1 e he
  simp [Ext.holds] at this
  omega

/-- The first extent decides about the next block. -/
theorem tiles_cons {k N : Nat} {e : Ext} {l : List Ext} (hp : 0 < e.len) (hk : k ≤ e.off)
    (hl : ∀ x ∈ l, e.off ≤ x.off) :
    Tiles k N (e :: l) ↔ k = e.off ∧ Tiles (e.off + e.len) N l := by
  have hcons : ∀ n, (e :: l).countP (Ext.holds n) =
      l.countP (Ext.holds n) + if e.off ≤ n ∧ n < e.off + e.len then 1 else 0 := by
    intro n
    rw [List.countP_cons]
    by_cases h : e.off ≤ n ∧ n < e.off + e.len
    · simp [Ext.holds, h]
    · have : e.holds n = false := by
        apply Bool.eq_false_iff.mpr
        intro h'
        simp only [Ext.holds, Bool.and_eq_true, decide_eq_true_eq] at h'
        exact h h'
      rw [this, if_neg h]
      simp
  constructor
  · rintro ⟨hN, hc⟩
    have h0 := hc e.off
    rw [hcons, if_pos (show e.off ≤ e.off ∧ e.off < e.off + e.len by omega)] at h0
    have hke : k = e.off := by
      rcases Nat.lt_or_eq_of_le hk with h | h
      · exfalso
        have hk0 := hc k
        rw [hcons, if_neg (show ¬ (e.off ≤ k ∧ k < e.off + e.len) by omega)] at hk0
        have hz : l.countP (Ext.holds k) = 0 := by
          rw [List.countP_eq_zero]
          intro x hx hx'
          simp only [Ext.holds, Bool.and_eq_true, decide_eq_true_eq] at hx'
          have := hl x hx
          omega
        rw [hz] at hk0
        by_cases hkN : k < N
        · rw [if_pos ⟨Nat.le_refl _, hkN⟩] at hk0
          omega
        · rw [if_neg (show ¬ (k ≤ e.off ∧ e.off < N) by omega)] at h0
          omega
      · exact h
    refine ⟨hke, ?_, ?_⟩
    · have h1 := hc (e.off + e.len - 1)
      rw [hcons, if_pos (show e.off ≤ e.off + e.len - 1 ∧ e.off + e.len - 1 < e.off + e.len by
        omega)] at h1
      by_cases hx : e.off + e.len - 1 < N
      · omega
      · rw [if_neg (by omega)] at h1
        omega
    · intro n
      have h1 := hc n
      rw [hcons] at h1
      split at h1 <;> split at h1 <;> split <;> omega
  · rintro ⟨hke, hN, hc⟩
    refine ⟨by omega, fun n => ?_⟩
    rw [hcons, hc n]
    split <;> split <;> split <;> omega

theorem tiles_perm {k N : Nat} {l l' : List Ext} (h : ∀ n, l.countP (Ext.holds n) =
    l'.countP (Ext.holds n)) : Tiles k N l ↔ Tiles k N l' := by
  unfold Tiles
  simp only [h]

theorem walk_iff (k N : Nat) (bs fs : List Ext) (hb : bs.Pairwise fun x y => x.off ≤ y.off)
    (hf : fs.Pairwise fun x y => x.off ≤ y.off) (hp : ∀ e ∈ bs ++ fs, 0 < e.len) :
    (walk k bs fs = true ∧ N = k + total bs + total fs) ↔ Tiles k N (bs ++ fs) := by
  fun_induction walk k bs fs with
  | case1 k => simp [tiles_nil, total]
  | case2 k b bs h =>
    simp only [Bool.false_eq_true, false_and, false_iff]
    exact tiles_excess (e := b) (by simp) (hp b (by simp)) h
  | case3 k b bs h ih =>
    rw [List.pairwise_cons] at hb
    rw [List.cons_append, tiles_cons (hp b (by simp)) (by omega)
      (by intro x hx; exact hb.1 x (by simpa using hx)),
      ← ih hb.2 hf fun e he => hp e (by simp only [List.cons_append, List.mem_cons]; exact Or.inr he)]
    rw [Bool.and_eq_true, decide_eq_true_eq]
    simp only [total, List.map_cons, List.sum_cons]
    constructor
    · rintro ⟨⟨h1, h2⟩, h3⟩; exact ⟨h1, h2, by omega⟩
    · rintro ⟨h1, h2, h3⟩; exact ⟨⟨h1, h2⟩, by omega⟩
  | case4 k f fs h =>
    simp only [Bool.false_eq_true, false_and, false_iff]
    exact tiles_excess (e := f) (by simp) (hp f (by simp)) h
  | case5 k f fs h ih =>
    rw [List.pairwise_cons] at hf
    rw [List.nil_append, tiles_cons (hp f (by simp)) (by omega)
      (by intro x hx; exact hf.1 x hx), ← List.nil_append fs,
      ← ih hb hf.2 fun e he => hp e (by simp at he ⊢; exact Or.inr he)]
    rw [Bool.and_eq_true, decide_eq_true_eq]
    simp only [total, List.map_cons, List.sum_cons, List.nil_append]
    constructor
    · rintro ⟨⟨h1, h2⟩, h3⟩; exact ⟨h1, h2, by omega⟩
    · rintro ⟨h1, h2, h3⟩; exact ⟨⟨h1, h2⟩, by omega⟩
  | case6 k b bs f fs h =>
    simp only [Bool.false_eq_true, false_and, false_iff]
    exact tiles_excess (e := b) (by simp) (hp b (by simp)) h
  | case7 k b bs f fs h h' =>
    simp only [Bool.false_eq_true, false_and, false_iff]
    exact tiles_excess (e := f) (by simp) (hp f (by simp)) h'
  | case8 k b bs f fs h h' hc ih =>
    have hle : b.off ≤ f.off := by
      unfold extCmp at hc
      split at hc
      · split at hc <;> omega
      · omega
    have hb' := List.pairwise_cons.mp hb
    have hf' := List.pairwise_cons.mp hf
    rw [List.cons_append, tiles_cons (hp b (by simp)) (by omega),
      ← ih hb'.2 hf fun e he => hp e (by simp only [List.cons_append, List.mem_cons]; exact Or.inr he)]
    · rw [Bool.and_eq_true, decide_eq_true_eq]
      simp only [total, List.map_cons, List.sum_cons]
      constructor
      · rintro ⟨⟨h1, h2⟩, h3⟩; exact ⟨h1, h2, by omega⟩
      · rintro ⟨h1, h2, h3⟩; exact ⟨⟨h1, h2⟩, by omega⟩
    · intro x hx
      rcases List.mem_append.mp hx with e | e
      · exact hb'.1 x e
      · rcases List.mem_cons.mp e with e | e
        · rw [e]; exact hle
        · exact Nat.le_trans hle (hf'.1 x e)
  | case9 k b bs f fs h h' hc ih =>
    have hle : f.off ≤ b.off := by
      unfold extCmp at hc
      split at hc
      · split at hc <;> omega
      · omega
    have hb' := List.pairwise_cons.mp hb
    have hf' := List.pairwise_cons.mp hf
    rw [tiles_perm (l := b :: bs ++ f :: fs) (l' := f :: (b :: bs ++ fs)) (by
      intro n
      simp only [List.countP_append, List.countP_cons]
      omega)]
    rw [tiles_cons (hp f (by simp)) (by omega), ← ih hb hf'.2 fun e he => hp e (by
      rcases List.mem_append.mp he with e' | e'
      · exact List.mem_append.mpr (Or.inl e')
      · exact List.mem_append.mpr (Or.inr (List.mem_cons_of_mem _ e')))]
    · rw [Bool.and_eq_true, decide_eq_true_eq]
      simp only [total, List.map_cons, List.sum_cons]
      constructor
      · rintro ⟨⟨h1, h2⟩, h3⟩; exact ⟨h1, h2, by omega⟩
      · rintro ⟨h1, h2, h3⟩; exact ⟨⟨h1, h2⟩, by omega⟩
    · intro x hx
      rcases List.mem_append.mp hx with e | e
      · rcases List.mem_cons.mp e with e | e
        · rw [e]; exact hle
        · exact Nat.le_trans hle (hb'.1 x e)
      · exact hf'.1 x e

theorem perm_insertExt (e : Ext) : ∀ l : List Ext, (insertExt e l).Perm (e :: l)
  | [] => List.Perm.refl _
  | x :: t => by
    unfold insertExt
    split
    · exact ((perm_insertExt e t).cons x).trans (List.Perm.swap e x t)
    · exact List.Perm.refl _

theorem perm_sortExts : ∀ l : List Ext, (sortExts l).Perm l
  | [] => List.Perm.refl _
  | e :: t => (perm_insertExt e _).trans ((perm_sortExts t).cons e)

theorem insertExt_sorted (e : Ext) : ∀ l : List Ext, l.Pairwise (fun x y => x.off ≤ y.off) →
    (insertExt e l).Pairwise fun x y => x.off ≤ y.off
  | [], _ => by simp [insertExt]
  | x :: t, h => by
    have h' := List.pairwise_cons.mp h
    unfold insertExt
    split
    · rename_i hc
      rw [List.pairwise_cons]
      refine ⟨fun y hy => ?_, insertExt_sorted e t h'.2⟩
      rcases List.mem_cons.mp ((perm_insertExt e t).mem_iff.mp hy) with e' | e'
      · rw [e']
        unfold extCmp at hc
        split at hc
        · split at hc <;> omega
        · omega
      · exact h'.1 y e'
    · rename_i hc
      have hle : e.off ≤ x.off := by
        unfold extCmp at hc
        split at hc
        · split at hc <;> omega
        · omega
      rw [List.pairwise_cons]
      refine ⟨fun y hy => ?_, h⟩
      rcases List.mem_cons.mp hy with e' | e'
      · rw [e']; exact hle
      · exact Nat.le_trans hle (h'.1 y e')

theorem sortExts_sorted : ∀ l : List Ext, (sortExts l).Pairwise fun x y => x.off ≤ y.off
  | [] => by simp [sortExts]
  | e :: t => insertExt_sorted e _ (sortExts_sorted t)

theorem blocksCount_eq (l : List Ext) : blocksCount l = total l := by
  have h : ∀ (l : List Ext) (c : Nat), l.foldl (fun c e => c + e.len) c = c + total l := by
    intro l
    induction l with
    | nil => intro c; simp [total]
    | cons e t ih =>
      intro c
      rw [List.foldl_cons, ih]
      simp only [total, List.map_cons, List.sum_cons]
      omega
  have := h l 0
  unfold blocksCount
  omega

theorem total_perm {l l' : List Ext} (h : l.Perm l') : total l = total l' := by
  induction h with
  | nil => rfl
  | cons x _ ih => simp only [total, List.map_cons, List.sum_cons] at ih ⊢; omega
  | swap x y l => simp only [total, List.map_cons, List.sum_cons]; omega
  | trans _ _ ih ih' => exact ih.trans ih'

theorem checkExtents_iff (N : Nat) (busy free : List Ext) (hp : ∀ e ∈ busy ++ free, 0 < e.len) :
    (checkExtents busy free = true ∧ N = total busy + total free) ↔ Tiles 0 N (busy ++ free) := by
  have hperm : (sortExts busy ++ sortExts free).Perm (busy ++ free) :=
    (perm_sortExts busy).append (perm_sortExts free)
  have h := walk_iff 0 N _ _ (sortExts_sorted busy) (sortExts_sorted free)
    fun e he => hp e (hperm.mem_iff.mp he)
  rw [total_perm (perm_sortExts busy), total_perm (perm_sortExts free), Nat.zero_add,
    tiles_perm (l' := busy ++ free) (fun n => hperm.countP_eq _)] at h
  exact h

theorem tiles_count (N : Nat) (l : List Ext) : Tiles 0 N l ↔
    ∀ n, l.countP (fun e => decide (e.off ≤ n ∧ n < e.off + e.len)) = if n < N then 1 else 0 := by
  have hh : ∀ n, (fun e : Ext => decide (e.off ≤ n ∧ n < e.off + e.len)) = Ext.holds n := by
    intro n
    funext e
    simp [Ext.holds]
  unfold Tiles
  simp only [hh, Nat.zero_le, true_and]

/-- **C143**: the check of the blocks of a data file succeeds if and only if each block of the file is
in exactly one extent, of a page or free, and no extent holds a block behind the end of the file;
whatever the order in which the extents were collected. -/
theorem C143 (dataFileLen : Nat) (busy free : List Ext) (hp : ∀ e ∈ busy ++ free, 0 < e.len) :
    checkFile dataFileLen busy free = true ↔
      ∀ n, (busy ++ free).countP (fun e => decide (e.off ≤ n ∧ n < e.off + e.len)) =
        if n < dataFileLen then 1 else 0 := by
  rw [← tiles_count, ← checkExtents_iff dataFileLen busy free hp, ← blocksCount_eq,
    ← blocksCount_eq]
  unfold checkFile
  cases checkExtents busy free
  · simp
  · rw [if_neg (by simp)]
    by_cases h1 : blocksCount busy + blocksCount free < dataFileLen
    · rw [if_pos h1]; simp; omega
    · rw [if_neg h1]
      by_cases h2 : dataFileLen < blocksCount busy + blocksCount free
      · rw [if_pos h2]; simp; omega
      · rw [if_neg h2]; simp; omega

/-- Without the length of the file: the extents alone are found in order if and only if they cover
the blocks below some block once, and no other block. -/
theorem C143_extents (busy free : List Ext) (hp : ∀ e ∈ busy ++ free, 0 < e.len) :
    checkExtents busy free = true ↔
      ∃ N, ∀ n, (busy ++ free).countP (fun e => decide (e.off ≤ n ∧ n < e.off + e.len)) =
        if n < N then 1 else 0 := by
  constructor
  · intro h
    exact ⟨_, (tiles_count _ _).mp ((checkExtents_iff _ busy free hp).mp ⟨h, rfl⟩)⟩
  · rintro ⟨N, h⟩
    exact ((checkExtents_iff N busy free hp).mpr ((tiles_count _ _).mpr h)).1

/-- Pages and free extents of different lengths, collected in no order: they cover 9 blocks.  With
one block less, one block twice, or another length of the file, the check fails. -/
theorem C143_case :
    let busy : List Ext := [⟨6, 3⟩, ⟨0, 2⟩]
    let free : List Ext := [⟨5, 1⟩, ⟨2, 3⟩]
    (∀ e ∈ busy ++ free, 0 < e.len) ∧ checkFile 9 busy free = true ∧
      checkFile 8 busy free = false ∧ checkFile 10 busy free = false ∧
      checkExtents busy [⟨2, 3⟩] = false ∧ checkExtents (⟨3, 1⟩ :: busy) free = false := by
  refine ⟨by simp, ?_, ?_, ?_, ?_, ?_⟩ <;>
    simp [checkFile, blocksCount, checkExtents, sortExts, insertExt, extCmp, walk]

/-- **C144**: the checks of the order of the extents in a map file compare neighbours only, yet they
succeed if and only if every extent is in order with all behind it: by offset, and for compressed trees
by length, longer ones first, then by offset. -/
theorem C144 (l : List Ext) :
    (isSortedByOff l = true ↔ l.Pairwise fun x y => x.off ≤ y.off) ∧
    (isSortedByLenOff l = true ↔
      l.Pairwise fun x y => y.len < x.len ∨ (x.len = y.len ∧ x.off ≤ y.off)) := by
  constructor
  · fun_induction isSortedByOff l with
    | case1 a b t ih =>
      rw [Bool.and_eq_true, decide_eq_true_eq, ih, List.pairwise_cons (a := a)]
      refine and_congr_left fun h => ⟨fun hab x hx => ?_, fun h' => h' b (by simp)⟩
      rcases List.mem_cons.mp hx with e | e
      · rw [e]; exact hab
      · exact Nat.le_trans hab ((List.pairwise_cons.mp h).1 x e)
    | case2 l hl =>
      match l, hl with
      | [], _ => simp
      | [a], _ => simp
      | a :: b :: t, hl => exact absurd rfl (hl a b t)
  · fun_induction isSortedByLenOff l with
    | case1 a b t ih =>
      have hstep : (if a.len ≠ b.len then decide (b.len < a.len) else decide (a.off ≤ b.off)) =
          true ↔ b.len < a.len ∨ (a.len = b.len ∧ a.off ≤ b.off) := by
        split <;> rw [decide_eq_true_eq] <;> omega
      rw [Bool.and_eq_true, hstep, ih, List.pairwise_cons (a := a)]
      refine and_congr_left fun h => ⟨fun hab x hx => ?_, fun h' => h' b (by simp)⟩
      rcases List.mem_cons.mp hx with e | e
      · rw [e]; exact hab
      · have := (List.pairwise_cons.mp h).1 x e
        omega
    | case2 l hl =>
      match l, hl with
      | [], _ => simp
      | [a], _ => simp
      | a :: b :: t, hl => exact absurd rfl (hl a b t)

/-- An order by length that is none by offset, and a pair out of order. -/
theorem C144_case :
    isSortedByLenOff [⟨7, 3⟩, ⟨0, 2⟩, ⟨4, 2⟩] = true ∧ isSortedByOff [⟨7, 3⟩, ⟨0, 2⟩, ⟨4, 2⟩] = false ∧
      isSortedByOff [⟨0, 2⟩, ⟨4, 2⟩, ⟨7, 3⟩] = true ∧ isSortedByLenOff [⟨4, 2⟩, ⟨0, 2⟩] = false := by
  decide

end Verif.CheckExtents
