import Verif.Extents.Model

/-!
# `add_free_extents_from_tmp`, src/catalog/free_extents.c:551-634

Extents released while a checkpoint was running are written to a `*.tmp` file per
checkpoint and handed to `free_extent` later.
-/

namespace Verif.Extents

/-- What the function reads and writes: `metaPage->freeBuf.tag.num`, the `*.tmp`
files by checkpoint number, and (ghost) the extents passed to `free_extent` so
far.  The metaLock is held throughout, so no other process touches these. -/
structure Drain where
  tagNum : Nat
  cur : Nat
  files : Nat → Option (List Ext)
  freed : List Ext

/-- One iteration of the loop, src/catalog/free_extents.c:572-632; `none` when the
loop condition fails.  `usable` is `can_use_checkpoint_extents`
(src/checkpoint/checkpoint.c:5791-5807), taken constant during the call; `remove`
is the GUC `orioledb.remove_old_checkpoint_files`.  Read errors not modelled. -/
def Drain.iter (usable : Nat → Bool) (remove : Bool) (d : Drain) : Option Drain :=
  if usable d.cur then
    let d := { d with tagNum := d.cur }
    match d.files d.cur with
    | none => some { d with cur := d.cur + 1 }
    | some xs =>
      let d := { d with freed := d.freed ++ xs }
      some (if remove then { d with files := fun n => if n = d.cur then none else d.files n } else d)
  else none

/-- The loop run for at most `n` iterations; the flag tells whether it was left. -/
def Drain.loop (usable : Nat → Bool) (remove : Bool) : Nat → Drain → Drain × Bool
  | 0, d => (d, false)
  | n + 1, d =>
    match d.iter usable remove with
    | none => (d, true)
    | some d' => loop usable remove n d'

/-- A call: src/catalog/free_extents.c:562-572. -/
def Drain.call (usable : Nat → Bool) (remove : Bool) (n : Nat) (d : Drain) : Drain × Bool :=
  Drain.loop usable remove n { d with cur := d.tagNum + 1 }

/-! ## Specification -/

/-- The contents of the files of checkpoints `a, a+1, ...` (`k` of them). -/
def filesFrom (files : Nat → Option (List Ext)) (a : Nat) : Nat → List Ext
  | 0 => []
  | k + 1 => (files a).getD [] ++ filesFrom files (a + 1) k

/-- Full claim: every call returns, having released exactly the extents of the
files of the checkpoints `tagNum + 1 .. tagNum + k` (those usable), each once. -/
def C35_claim (remove : Bool) : Prop :=
  ∀ (usable : Nat → Bool) (d : Drain) (k : Nat),
    (∀ c, d.tagNum < c → c ≤ d.tagNum + k → usable c = true) → usable (d.tagNum + k + 1) = false →
    ∃ n, (d.call usable remove n).2 = true ∧
      (d.call usable remove n).1.freed = d.freed ++ filesFrom d.files (d.tagNum + 1) k ∧
      (d.call usable remove n).1.tagNum = d.tagNum + k

theorem filesFrom_congr {f g : Nat → Option (List Ext)} {a k : Nat}
    (h : ∀ c, a ≤ c → f c = g c) : filesFrom f a k = filesFrom g a k := by
  induction k generalizing a with
  | zero => rfl
  | succ k ih => rw [filesFrom, filesFrom, h a (Nat.le_refl _), ih (fun c hc => h c (by omega))]

theorem drain_remove (usable : Nat → Bool) (k : Nat) : ∀ d : Drain, d.cur = d.tagNum + 1 ∨ d.cur = d.tagNum ∧ d.files d.cur = none →
    (∀ c, d.cur ≤ c → c < d.cur + k → usable c = true) → usable (d.cur + k) = false →
    ∃ n, (d.loop usable true n).2 = true ∧
      (d.loop usable true n).1.freed = d.freed ++ filesFrom d.files d.cur k ∧
      (k = 0 ∨ (d.loop usable true n).1.tagNum + 1 = d.cur + k) ∧
      (k = 0 → (d.loop usable true n).1.tagNum = d.tagNum) := by
  induction k with
  | zero =>
    intro d _ _ h2
    refine ⟨1, ?_⟩
    simp [Drain.loop, Drain.iter, filesFrom, show usable d.cur = false from h2]
  | succ k ih =>
    intro d _ h1 h2
    have hu : usable d.cur = true := h1 d.cur (by omega) (by omega)
    -- skipping an absent file
    have skip : ∀ d : Drain, d.files d.cur = none → usable d.cur = true →
        (∀ c, d.cur ≤ c → c < d.cur + (k + 1) → usable c = true) →
        usable (d.cur + (k + 1)) = false →
        ∃ n, (d.loop usable true n).2 = true ∧
          (d.loop usable true n).1.freed = d.freed ++ filesFrom d.files (d.cur + 1) k ∧
          (d.loop usable true n).1.tagNum + 1 = d.cur + (k + 1) := by
      intro d hf hu h1 h2
      obtain ⟨n, hn1, hn2, hn3, hn4⟩ := ih { d with tagNum := d.cur, cur := d.cur + 1 } (Or.inl rfl)
        (fun c hc1 hc2 => h1 c (by dsimp only at hc1; omega) (by dsimp only at hc2; omega))
        (by dsimp only; rw [show d.cur + 1 + k = d.cur + (k + 1) by omega]; exact h2)
      refine ⟨n + 1, ?_⟩
      have hstep : d.loop usable true (n + 1) =
          Drain.loop usable true n { d with tagNum := d.cur, cur := d.cur + 1 } := by
        simp [Drain.loop, Drain.iter, hu, hf]
      rw [hstep]
      refine ⟨hn1, hn2, ?_⟩
      rcases hn3 with rfl | hn3
      · have := hn4 rfl
        dsimp only at this; omega
      · dsimp only at hn3; omega
    cases hf : d.files d.cur with
    | none =>
      obtain ⟨n, a, b, c⟩ := skip d hf hu h1 h2
      refine ⟨n, a, ?_, Or.inr c, by simp⟩
      rw [b, filesFrom, hf]; rfl
    | some xs =>
      obtain ⟨n, a, b, c⟩ := skip
        { d with tagNum := d.cur, freed := d.freed ++ xs,
                 files := fun n => if n = d.cur then none else d.files n }
        (by simp) hu h1 h2
      refine ⟨n + 1, ?_⟩
      have hstep : d.loop usable true (n + 1) = Drain.loop usable true n
          { d with tagNum := d.cur, freed := d.freed ++ xs,
                   files := fun n => if n = d.cur then none else d.files n } := by
        simp [Drain.loop, Drain.iter, hu, hf]
      rw [hstep]
      refine ⟨a, ?_, Or.inr c, by simp⟩
      rw [b, filesFrom, hf, Option.getD_some, List.append_assoc]
      congr 2
      apply filesFrom_congr
      intro c hc
      dsimp only
      rw [if_neg (by dsimp only at hc; omega)]

/-- **C35** with the default `remove_old_checkpoint_files = on`. -/
theorem C35_drain_partial : C35_claim true := by
  intro usable d k h1 h2
  obtain ⟨n, a, b, c, e⟩ := drain_remove usable k { d with cur := d.tagNum + 1 } (Or.inl rfl)
    (fun x hx1 hx2 => h1 x (by dsimp only at hx1; omega) (by dsimp only at hx2; omega))
    (by dsimp only; rw [show d.tagNum + 1 + k = d.tagNum + k + 1 by omega]; exact h2)
  refine ⟨n, a, b, ?_⟩
  rcases c with rfl | c
  · exact e rfl
  · unfold Drain.call
    dsimp only at c
    omega

/-- Two checkpoints' files, one missing in between. -/
example :
    let d : Drain := ⟨3, 0, fun n => if n = 4 then some [(5, 1), (9, 2)] else
      if n = 6 then some [(1, 1)] else none, []⟩
    (d.call (· ≤ 6) true 10).1.freed = [(5, 1), (9, 2), (1, 1)] ∧ (d.call (· ≤ 6) true 10).2 = true := by
  decide

/-- **C35 is false with `remove_old_checkpoint_files = off`**: `chkp_num` is only
advanced when the file is absent, so an existing file is read again and its
extents are released again and again; the call never returns. -/
theorem C35_violated : ¬ C35_claim false ∧
    ∃ (d : Drain) (usable : Nat → Bool), ∀ n, (d.call usable false n).2 = false ∧
      (d.call usable false n).1.freed = (List.replicate n [(5, 1)]).flatten := by
  have main : ∀ n (acc : List Ext),
      (Drain.loop (· ≤ 1) false n ⟨0, 1, fun _ => some [(5, 1)], acc⟩).2 = false := by
    intro n
    induction n with
    | zero => intro acc; rfl
    | succ n ih =>
      intro acc
      have := ih (acc ++ [(5, 1)])
      cases n with
      | zero => rfl
      | succ n => simpa [Drain.loop, Drain.iter] using this
  have freed : ∀ n (t : Nat) (acc : List Ext),
      (Drain.loop (· ≤ 1) false n ⟨t, 1, fun _ => some [(5, 1)], acc⟩).1.freed =
        acc ++ (List.replicate n [(5, 1)]).flatten := by
    intro n
    induction n with
    | zero => intro t acc; simp [Drain.loop]
    | succ n ih =>
      intro t acc
      have := ih 1 (acc ++ [(5, 1)])
      rw [List.replicate_succ, List.flatten_cons, ← List.append_assoc, ← this]
      simp [Drain.loop, Drain.iter]
  constructor
  · intro h
    obtain ⟨n, hn, _⟩ := h (· ≤ 1) ⟨0, 0, fun _ => some [(5, 1)], []⟩ 1
      (by intro c h1 h2; simp at *; omega) (by decide)
    have := main n []
    unfold Drain.call at hn
    rw [this] at hn
    cases hn
  · exact ⟨⟨0, 0, fun _ => some [(5, 1)], []⟩, (· ≤ 1), fun n => ⟨main n [], by
      have := freed n 0 []
      simpa [Drain.call] using this⟩⟩

end Verif.Extents
