import Verif.OBuffers.Cleanup

/-!
# C29, C48: what cleanup discards and what it leaves
-/

set_option linter.unusedVariables false

namespace Verif.OBuffers

variable {c : Cfg} {sparse : Bool} {tag : Nat}

/-- Nothing of the block was touched: its file, its bytes on disk, and the buffers that
hold it. -/
def Untouched (c : Cfg) (s s' : St) (k : Key) : Prop :=
  s'.fex k.1 (k.2 / c.perFile) = s.fex k.1 (k.2 / c.perFile) ∧ s'.disk k = s.disk k ∧
  ∀ g j, (s.bufs g j).id = some k → s'.bufs g j = s.bufs g j

/-- The item is still needed: by the checkpoint or by a transaction. -/
def Retained (ckS ckE trs i : Int) : Prop := (ckS ≤ i ∧ i < ckE) ∨ trs ≤ i

theorem Untouched.refl {s : St} {k : Key} : Untouched c s s k := ⟨rfl, rfl, fun _ _ _ => rfl⟩

theorem Untouched.trans {s s' s'' : St} {k : Key} (h1 : Untouched c s s' k) (h2 : Untouched c s' s'' k) :
    Untouched c s s'' k := by
  refine ⟨h2.1.trans h1.1, h2.2.1.trans h1.2.1, fun g j e => ?_⟩
  have h3 := h1.2.2 g j e
  rw [← h3]
  exact h2.2.2 g j (by rw [h3]; exact e)

theorem discardFile_untouched {s : St} {f first last : Int} {k : Key}
    (hk : ¬ (k.1 = tag ∧ first ≤ (k.2 : Int) ∧ (k.2 : Int) ≤ last)) :
    Untouched c s (discardFile c sparse tag first last s f) k := by
  unfold discardFile
  have hp : (0 : Int) < c.perFile := by have := c.hf; omega
  simp only
  split
  · next h =>
    have hin : ∀ b : Int, b / c.perFile = f → first ≤ b ∧ b ≤ last := by
      intro b hb
      have h1 := Int.ediv_mul_le b (b := (c.perFile : Int)) (by omega)
      have h2 := Int.lt_ediv_add_one_mul_self b hp
      rw [hb] at h1 h2
      rw [Int.add_mul] at h2
      omega
    refine ⟨?_, ?_, fun _ _ _ => rfl⟩
    · show (if k.1 = tag ∧ ((k.2 / c.perFile : Nat) : Int) = f then false else _) = _
      rw [if_neg]
      rintro ⟨h1, h2⟩
      exact hk ⟨h1, hin _ (by rw [← h2]; omega)⟩
    · show (if k.1 = tag ∧ (k.2 : Int) / c.perFile = f then _ else _) = _
      rw [if_neg]
      rintro ⟨h1, h2⟩
      exact hk ⟨h1, hin _ h2⟩
  · split
    · unfold punch
      split
      · refine ⟨rfl, ?_, fun _ _ _ => rfl⟩
        show (if k.1 = tag ∧ _ then _ else _) = _
        rw [if_neg]
        rintro ⟨h1, h2, h3⟩
        exact hk ⟨h1, by omega, by omega⟩
      · exact .refl
    · exact .refl

theorem wipe_untouched {s : St} {first last : Int} {k : Key}
    (hk : ¬ (k.1 = tag ∧ first ≤ (k.2 : Int) ∧ (k.2 : Int) ≤ last)) :
    Untouched c s (wipe s tag first last) k := by
  refine ⟨rfl, rfl, fun g j e => ?_⟩
  unfold wipe
  simp only
  split
  · next t n _ e2 =>
    rw [e] at e2; cases e2
    rw [if_neg hk]
  · rfl

theorem unlinkBlocksRange_untouched {s : St} {first last : Int} {k : Key}
    (hk : ¬ (k.1 = tag ∧ first ≤ (k.2 : Int) ∧ (k.2 : Int) ≤ last)) :
    Untouched c s (unlinkBlocksRange c sparse s tag first last) k := by
  unfold unlinkBlocksRange
  split
  · exact .refl
  · refine (wipe_untouched hk).trans ?_
    generalize wipe s tag first last = s1
    generalize fileRange _ _ = l
    induction l generalizing s1 with
    | nil => exact .refl
    | cons f l ih =>
      rw [List.foldl_cons]
      exact (discardFile_untouched hk).trans (ih _)

theorem below_of_le {i ipb finish : Int} (hp : 0 < ipb) (h : i / ipb ≤ finish / ipb - 1) : i < finish := by
  have h1 := Int.lt_ediv_add_one_mul_self i hp
  have h2 : (i / ipb + 1) * ipb ≤ finish / ipb * ipb :=
    Int.mul_le_mul_of_nonneg_right (by omega) (by omega)
  have h3 := Int.ediv_mul_le finish (b := ipb) (by omega)
  omega

theorem ge_of_ceil_le {i ipb x : Int} (hp : 0 < ipb) (h : (x + ipb - 1) / ipb ≤ i / ipb) : x ≤ i := by
  have h1 := Int.ediv_mul_le i (b := ipb) (by omega)
  have h2 : (x + ipb - 1) / ipb * ipb ≤ i / ipb * ipb :=
    Int.mul_le_mul_of_nonneg_right h (by omega)
  have h3 := Int.lt_ediv_add_one_mul_self (x + ipb - 1) hp
  rw [Int.add_mul] at h3
  omega

/-- C29: whatever is to be cleaned and whatever is retained, the block of a retained item is
left alone: its file is not removed, no hole is punched there, and no buffer with it is
dropped. -/
theorem C29_retained (c : Cfg) (sparse : Bool) (s : St) (tag : Nat) (ipb : Int) (hp : 0 < ipb)
    (cs ce ckS ckE trs i : Int) (hi : 0 ≤ i) (h : Retained ckS ckE trs i) :
    Untouched c s (unlinkUnretained c sparse s tag ipb cs ce ckS ckE trs) (tag, (i / ipb).toNat) := by
  have hb : (((i / ipb).toNat : Nat) : Int) = i / ipb := Int.toNat_of_nonneg (Int.ediv_nonneg hi (by omega))
  unfold unlinkUnretained
  split
  · exact .refl
  · simp only
    have hret : (if ckS < ckE then min ckS trs else trs) ≤ i := by
      rcases h with h | h
      · rw [if_pos (by omega)]; omega
      · split <;> omega
    generalize hr : (if ckS < ckE then min ckS trs else trs) = rs at hret ⊢
    refine Untouched.trans (s' := cleanBelow c sparse s tag ipb cs ce rs) ?_ ?_
    · unfold cleanBelow
      simp only
      split
      · apply unlinkBlocksRange_untouched
        rintro ⟨-, -, h2⟩
        simp only [hb] at h2
        have := below_of_le hp h2
        omega
      · exact .refl
    · generalize cleanBelow c sparse s tag ipb cs ce rs = s1
      unfold cleanGap
      simp only
      split
      · next hg =>
        split
        · apply unlinkBlocksRange_untouched
          rintro ⟨-, h1, h2⟩
          simp only [hb] at h1 h2
          have hlt := below_of_le hp h2
          have hge : ckE ≤ i := by
            split at h1
            · next hx => exact ge_of_ceil_le hp (by omega)
            · have := ge_of_ceil_le hp h1; omega
          rcases h with h | h <;> omega
        · exact .refl
      · exact .refl

/-- Other kinds of files are not touched at all. -/
theorem C29_other_tags (c : Cfg) (sparse : Bool) (s : St) (tag : Nat) (ipb cs ce ckS ckE trs : Int)
    (k : Key) (hk : k.1 ≠ tag) :
    Untouched c s (unlinkUnretained c sparse s tag ipb cs ce ckS ckE trs) k := by
  have hx : ∀ {s : St} {a b : Int}, Untouched c s (unlinkBlocksRange c sparse s tag a b) k :=
    fun {s a b} => unlinkBlocksRange_untouched (fun h => hk h.1)
  unfold unlinkUnretained
  split
  · exact .refl
  · simp only
    generalize (if ckS < ckE then min ckS trs else trs) = rs
    refine Untouched.trans (s' := cleanBelow c sparse s tag ipb cs ce rs) ?_ ?_
    · unfold cleanBelow; simp only; split
      · exact hx
      · exact .refl
    · unfold cleanGap; simp only; split
      · split
        · exact hx
        · exact .refl
      · exact .refl

/-- A case for C29: 512 items a block and 2048 blocks a file, as for transaction statuses;
the checkpoint retains items of file 0, the gap covers the rest of it and all of file 1.
File 1 goes, blocks of file 0 and of file 2 with retained items stay. -/
def cfgX : Cfg := ⟨8192, 1, 2048, by decide, by decide, by decide⟩

/-- A store in which every file exists and every byte is 1. -/
def full : St := ⟨fun _ _ => ⟨none, none, 0, false, fun _ => 0, none⟩, fun _ _ => 1, fun _ _ => true, [], []⟩

/-- After that cleanup. -/
def cleaned : St := unlinkUnretained cfgX true full 0 512 100 2100000 5000 1000000 2100000

example : Retained 5000 1000000 2100000 999999 := by unfold Retained; omega
example : Retained 5000 1000000 2100000 2100000 := by unfold Retained; omega
example : cleaned.fex 0 0 = true ∧ cleaned.fex 0 1 = false ∧ cleaned.fex 0 2 = true := by decide
example : cleaned.disk (0, 999999 / 512) 0 = 1 ∧ cleaned.disk (0, 1000000 / 512 + 1) 0 = 0 ∧
    cleaned.disk (0, 2100000 / 512) 0 = 1 := by decide

/-! ## C48: dead files -/

/-- Successive cleanups without a retained checkpoint range: each starts where the previous
one ended, as in `src/transam/oxid.c:1527-1556` and `src/transam/undo.c:690-756`. -/
def cleanups (c : Cfg) (sparse : Bool) (tag : Nat) (ipb : Int) (s : St) (from_ : Int) : List Int → St
  | [] => s
  | x :: xs => cleanups c sparse tag ipb (unlinkUnretained c sparse s tag ipb from_ x 0 0 x) x xs

/-- The retained range starts at `from_`, then at each of the positions, which do not
decrease. -/
def Rising (from_ : Int) : List Int → Prop
  | [] => True
  | x :: xs => from_ ≤ x ∧ Rising x xs

/-- Where the retained range starts in the end. -/
def final (from_ : Int) (xs : List Int) : Int := xs.getLast?.getD from_

/-- C48: a file all of whose items have been given up does not exist any more. -/
def NoDeadFile (c : Cfg) (tag : Nat) (ipb start finish : Int) (s : St) : Prop :=
  ∀ f : Nat, start ≤ f * (c.perFile * ipb) → (f + 1) * (c.perFile * ipb) ≤ finish → s.fex tag f = false

theorem discardFile_fex {s : St} {f first last : Int} {t n : Nat} (h : s.fex t n = false) :
    (discardFile c sparse tag first last s f).fex t n = false := by
  unfold discardFile
  simp only
  split
  · show (if _ then false else _) = false
    split
    · rfl
    · exact h
  · split
    · unfold punch; split <;> exact h
    · exact h

theorem foldl_fex {first last : Int} {t n : Nat} : ∀ (l : List Int) {s : St}, s.fex t n = false →
    (l.foldl (discardFile c sparse tag first last) s).fex t n = false := by
  intro l
  induction l with
  | nil => intro s h; exact h
  | cons f l ih => intro s h; exact ih (discardFile_fex h)

theorem unlinkBlocksRange_fex {s : St} {first last : Int} {t n : Nat} (h : s.fex t n = false) :
    (unlinkBlocksRange c sparse s tag first last).fex t n = false := by
  unfold unlinkBlocksRange
  split
  · exact h
  · exact foldl_fex _ h

/-- A file that lies within the range is removed. -/
theorem unlinkBlocksRange_removes {s : St} {first last : Int} {f : Nat}
    (h1 : first ≤ f * c.perFile) (h2 : (f : Int) * c.perFile + c.perFile - 1 ≤ last) :
    (unlinkBlocksRange c sparse s tag first last).fex tag f = false := by
  have hp : (0 : Int) < c.perFile := by have := c.hf; omega
  unfold unlinkBlocksRange
  rw [if_neg (by omega)]
  have hm : (f : Int) ∈ fileRange (first / c.perFile) (last / c.perFile) := by
    have a1 : first / c.perFile ≤ f := by
      have := Int.ediv_le_ediv hp h1
      rw [Int.mul_ediv_cancel _ (by omega)] at this
      exact this
    have a2 : (f : Int) ≤ last / c.perFile := by
      have := Int.ediv_le_ediv hp (show (f : Int) * c.perFile ≤ last by omega)
      rw [Int.mul_ediv_cancel _ (by omega)] at this
      exact this
    unfold fileRange
    rw [List.mem_map]
    refine ⟨(f - first / c.perFile).toNat, ?_, ?_⟩
    · rw [List.mem_range]; omega
    · omega
  generalize wipe s tag first last = s1
  generalize fileRange _ _ = l at hm
  induction l generalizing s1 with
  | nil => cases hm
  | cons x l ih =>
    rw [List.foldl_cons]
    rcases List.mem_cons.mp hm with e | e
    · subst e
      apply foldl_fex
      unfold discardFile
      simp only
      rw [if_pos ⟨by omega, by omega⟩]
      show (if _ then false else _) = false
      rw [if_pos ⟨rfl, rfl⟩]
    · exact ih _ e

theorem unlinkUnretained_fex {s : St} {ipb cs ce ckS ckE trs : Int} {t n : Nat} (h : s.fex t n = false) :
    (unlinkUnretained c sparse s tag ipb cs ce ckS ckE trs).fex t n = false := by
  unfold unlinkUnretained
  split
  · exact h
  · simp only
    generalize (if ckS < ckE then min ckS trs else trs) = rs
    have h1 : (cleanBelow c sparse s tag ipb cs ce rs).fex t n = false := by
      unfold cleanBelow; simp only; split
      · exact unlinkBlocksRange_fex h
      · exact h
    unfold cleanGap; simp only; split
    · split
      · exact unlinkBlocksRange_fex h1
      · exact h1
    · exact h1

/-- The position is inside the last block of some file. -/
def InLastBlock (c : Cfg) (ipb x : Int) : Prop :=
  ∃ f : Nat, (f + 1) * (c.perFile * ipb) - ipb < x ∧ x < (f + 1) * (c.perFile * ipb)

theorem removed_now {s : St} {ipb cs ce : Int} {f : Nat} (hp : 0 < ipb) (hcs : 0 ≤ cs)
    (hl : ¬ InLastBlock c ipb cs) (h1 : cs < (f + 1) * (c.perFile * ipb))
    (h2 : (f + 1) * (c.perFile * ipb) ≤ ce) :
    (unlinkUnretained c sparse s tag ipb cs ce 0 0 ce).fex tag f = false := by
  have hf : (0 : Int) < c.perFile := by have := c.hf; omega
  have e : ((f : Int) + 1) * (c.perFile * ipb) = ((f + 1) * c.perFile) * ipb := (Int.mul_assoc _ _ _).symm
  have h3 : cs ≤ ((f + 1) * c.perFile) * ipb - ipb := by
    rw [← e]
    refine Int.not_lt.mp fun hx => hl ⟨f, hx, h1⟩
  have e2 : ((f : Int) + 1) * c.perFile = f * c.perFile + c.perFile := by rw [Int.add_mul]; omega
  have h4 : (cs + ipb - 1) / ipb ≤ (f + 1) * c.perFile - 1 := by
    have : cs + ipb - 1 < ((f + 1) * c.perFile) * ipb := by omega
    have := (Int.ediv_lt_iff_lt_mul hp).mpr this
    omega
  have h5 : ((f : Int) + 1) * c.perFile ≤ ce / ipb := by
    apply (Int.le_ediv_iff_mul_le hp).mpr
    rw [← e]; exact h2
  have hpos : (0 : Int) ≤ f := by omega
  unfold unlinkUnretained
  rw [if_neg (by omega)]
  simp only
  rw [if_neg (by omega : ¬ ((0 : Int) < 0))]
  have h6 : (cleanBelow c sparse s tag ipb cs ce ce).fex tag f = false := by
    unfold cleanBelow
    simp only
    have hm : min ce ce = ce := by omega
    rw [hm, if_pos (by omega)]
    apply unlinkBlocksRange_removes
    · split
      · have : (cs + ipb - 1) / ipb / c.perFile ≤ f := by
          have h7 : (cs + ipb - 1) / ipb < (f + 1) * c.perFile := by omega
          have := (Int.ediv_lt_iff_lt_mul hf).mpr h7
          omega
        exact Int.mul_le_mul_of_nonneg_right this (by omega)
      · next hx =>
        refine Int.not_lt.mp fun hy => hx ?_
        have : (cs + ipb - 1) / ipb / c.perFile ≤ f := by
          have h7 : (cs + ipb - 1) / ipb < (f + 1) * c.perFile := by omega
          have := (Int.ediv_lt_iff_lt_mul hf).mpr h7
          omega
        have : ((cs + ipb - 1) / ipb / c.perFile + 1) * (c.perFile : Int) ≤ (f + 1) * c.perFile :=
          Int.mul_le_mul_of_nonneg_right (by omega) (by omega)
        omega
    · omega
  unfold cleanGap
  rw [if_neg (by omega)]
  exact h6

/-- C48, provided that no cleanup ended inside the last block of a file (and that no
checkpoint range was retained).  Missing: without that the file stays (`C48_violated`). -/
theorem C48_partial (c : Cfg) (sparse : Bool) (tag : Nat) (ipb : Int) (hp : 0 < ipb) (s : St)
    (start : Int) (xs : List Int) (h0 : 0 ≤ start) (hr : Rising start xs)
    (hl : ∀ x ∈ start :: xs, ¬ InLastBlock c ipb x) :
    NoDeadFile c tag ipb start (final start xs) (cleanups c sparse tag ipb s start xs) := by
  suffices h : ∀ (xs : List Int) (s : St) (a : Int), 0 ≤ a → Rising a xs →
      (∀ x ∈ a :: xs, ¬ InLastBlock c ipb x) → ∀ f : Nat,
      (s.fex tag f = false ∨ a < (f + 1) * (c.perFile * ipb)) →
      (f + 1) * (c.perFile * ipb) ≤ final a xs → (cleanups c sparse tag ipb s a xs).fex tag f = false by
    intro f h1 h2
    refine h xs s start h0 hr hl f (Or.inr ?_) h2
    have : (0 : Int) < c.perFile * ipb := Int.mul_pos (by have := c.hf; omega) hp
    rw [Int.add_mul]; omega
  intro xs
  induction xs with
  | nil =>
    intro s a _ _ _ f h1 h2
    rcases h1 with h1 | h1
    · exact h1
    · have : final a [] = a := rfl
      omega
  | cons x xs ih =>
    intro s a ha hr hl f h1 h2
    have e : final a (x :: xs) = final x xs := by
      unfold final
      cases xs with
      | nil => rfl
      | cons y ys => simp [List.getLast?_eq_some_getLast]
    rw [e] at h2
    refine ih _ x (by have := hr.1; omega) hr.2 (fun y hy => hl y (List.mem_cons_of_mem _ hy)) f ?_ h2
    rcases h1 with h1 | h1
    · exact Or.inl (unlinkUnretained_fex h1)
    · by_cases hx : x < (f + 1) * (c.perFile * ipb)
      · exact Or.inr hx
      · exact Or.inl (removed_now hp ha (hl a (by simp)) h1 (by omega))

/-- The hypotheses of `C48_partial` for three cleanups with the sizes of transaction
statuses: 1048576 items a file. -/
theorem case48 : Rising 0 [1000000, 1048064, 3000000] ∧
    (∀ x ∈ (0 : Int) :: [1000000, 1048064, 3000000], ¬ InLastBlock cfgX 512 x) ∧
    (cleanups cfgX false 0 512 full 0 [1000000, 1048064, 3000000]).fex 0 0 = false ∧
    (cleanups cfgX false 0 512 full 0 [1000000, 1048064, 3000000]).fex 0 2 = true := by
  refine ⟨by simp [Rising], ?_, by decide, by decide⟩
  intro x hx
  rintro ⟨f, h1, h2⟩
  have e : ((cfgX.perFile : Int) * 512) = 1048576 := rfl
  rw [e] at h1 h2
  simp only [List.mem_cons, List.not_mem_nil, or_false] at hx
  omega

/-- C48 is false: a cleanup that ends inside the last block of a file leaves that block for
the next one, which starts with the block after it, in the next file
(`src/utils/o_buffers.c:671-674`); the file of 16 MB stays for ever. -/
theorem C48_violated : ¬ ∀ (c : Cfg) (sparse : Bool) (tag : Nat) (ipb : Int), 0 < ipb → ∀ (s : St)
    (start : Int) (xs : List Int), 0 ≤ start → Rising start xs →
    NoDeadFile c tag ipb start (final start xs) (cleanups c sparse tag ipb s start xs) := by
  intro h
  have h1 := h cfgX true 0 512 (by decide) full 0 [1048100, 3000000] (by decide) (by simp [Rising]) 0
    (by decide) (by decide)
  exact absurd h1 (by decide)

end Verif.OBuffers
