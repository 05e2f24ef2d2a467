import Verif.Extents.Inv

namespace Verif.Extents

/-! ## The invariant of whole states -/

def othersFree (ps : List PC) : Nat := (ps.map freeHold).sum

structure Inv (s : State) : Prop where
  foc : Foc s.lo s.ol s.used s.fileLen s.numFree .idle (s.procs.flatMap hold)
    (s.procs.flatMap olHold) (othersFree s.procs)
  wf : ∀ pc ∈ s.procs, WF pc

theorem ooIn_of_wf {ps : List PC} (h : ∀ pc ∈ ps, WF pc) :
    OoIn (ps.flatMap hold) (ps.flatMap olHold) := by
  intro x hx
  obtain ⟨pc, hpc, hx⟩ := List.mem_flatMap.1 hx
  have := olHold_in (h pc hpc) x hx
  refine ⟨this.1, ?_⟩
  obtain ⟨y, hy, hb⟩ := List.countP_pos_iff.1 this.2
  unfold cover
  rw [List.countP_pos_iff]
  exact ⟨y, List.mem_flatMap.2 ⟨pc, hpc, hy⟩, hb⟩

theorem foc_iff {lo ol used : List Ext} {fl nf : Nat} {A B : List PC} {pc : PC} :
    Foc lo ol used fl nf .idle ((A ++ pc :: B).flatMap hold) ((A ++ pc :: B).flatMap olHold)
      (othersFree (A ++ pc :: B)) ↔
    Foc lo ol used fl nf pc ((A ++ B).flatMap hold) ((A ++ B).flatMap olHold)
      (othersFree (A ++ B)) := by
  have hp : ∀ t : List Ext, t.Perm (lo ++ (olHold .idle ++ (A ++ pc :: B).flatMap olHold)) ↔
      t.Perm (lo ++ (olHold pc ++ (A ++ B).flatMap olHold)) := by
    intro t
    simp only [List.perm_iff_count, List.count_append, List.flatMap_append, List.flatMap_cons,
      olHold, List.count_nil]
    constructor <;> intro h a <;> have := h a <;> omega
  have hc : ∀ b, cover (hold .idle) b + cover ((A ++ pc :: B).flatMap hold) b =
      cover (hold pc) b + cover ((A ++ B).flatMap hold) b := by
    intro b
    simp only [cover_append, List.flatMap_append, List.flatMap_cons, hold, cover_nil]
    omega
  have hf : freeHold .idle + othersFree (A ++ pc :: B) = freeHold pc + othersFree (A ++ B) := by
    simp [othersFree, freeHold, hold, size_nil]
    omega
  constructor
  · rintro ⟨h1, h2, h3, h4, h5⟩
    refine ⟨?_, h2, h3, (hp _).1 h4, by omega⟩
    intro b
    rw [← h1 b]
    have := hc b
    omega
  · rintro ⟨h1, h2, h3, h4, h5⟩
    refine ⟨?_, h2, h3, (hp _).2 h4, by omega⟩
    intro b
    rw [← h1 b]
    have := hc b
    omega

theorem split_at {α : Type} {l : List α} {i : Nat} {a : α} (h : l[i]? = some a) :
    ∃ A B, l = A ++ a :: B ∧ ∀ a', l.set i a' = A ++ a' :: B := by
  obtain ⟨hlt, rfl⟩ := List.getElem?_eq_some_iff.1 h
  refine ⟨l.take i, l.drop (i + 1), ?_, ?_⟩
  · rw [← List.drop_eq_getElem_cons hlt, List.take_append_drop]
  · intro a'
    rw [List.set_eq_take_append_cons_drop]
    simp [hlt]

theorem inv_step {s : State} (h : Inv s) (i : Nat) (c : Cmd) : Inv (s.step i c) := by
  cases hpc : s.procs[i]? with
  | none =>
    unfold State.step
    simp only [hpc]
    exact h
  | some pc =>
    obtain ⟨A, B, hAB, hset⟩ := split_at hpc
    have hwf := h.wf
    rw [hAB] at hwf
    have hf := h.foc
    rw [hAB, foc_iff] at hf
    have ho : OoIn ((A ++ B).flatMap hold) ((A ++ B).flatMap olHold) :=
      ooIn_of_wf (fun p hp => hwf p (by
        rcases List.mem_append.1 hp with hp | hp <;> simp [hp]))
    obtain ⟨lo', ol', used', fl', nf', pc', he, hf', hw'⟩ :=
      step_foc (c := c) hpc (hwf pc (by simp)) ho hf
    rw [he, hset]
    refine ⟨foc_iff.2 hf', ?_⟩
    intro p hp
    dsimp only at hp
    rcases List.mem_append.1 hp with hp | hp
    · exact hwf p (by simp [hp])
    · rcases List.mem_cons.1 hp with rfl | hp
      · exact hw'
      · exact hwf p (by simp [hp])

theorem inv_run {s : State} (h : Inv s) (σ : Sched) : Inv (s.run σ) := by
  unfold State.run
  induction σ generalizing s with
  | nil => exact h
  | cons m σ ih => exact ih (inv_step h m.1 m.2)

theorem inv_init (n : Nat) : Inv (init n) := by
  have h1 : (List.replicate n PC.idle).flatMap hold = [] := by
    rw [List.flatMap_eq_nil_iff]; intro p hp; rw [(List.mem_replicate.1 hp).2]; rfl
  have h2 : (List.replicate n PC.idle).flatMap olHold = [] := by
    rw [List.flatMap_eq_nil_iff]; intro p hp; rw [(List.mem_replicate.1 hp).2]; rfl
  have h3 : othersFree (List.replicate n PC.idle) = 0 := by
    unfold othersFree
    rw [List.map_replicate]
    simp [freeHold, hold, size]
  refine ⟨⟨?_, ?_, ?_, ?_, ?_⟩, ?_⟩
  · intro b; simp [init, h1, cover, hold]
  · intro x hx; cases hx
  · intro x hx; cases hx
  · simp [init, h2, olHold]
  · simp [init, h3, size, freeHold, hold]
  · intro pc hpc
    rw [(List.mem_replicate.1 hpc).2]
    trivial

/-! ## Operations that do not overlap in time -/

def NoAdj (l : List Ext) : Prop := ∀ x ∈ l, ∀ y ∈ l, x.1 + x.2 ≠ y.1

/-- `l` and `r` are exactly the neighbours of the extent in `t`. -/
def Exact (t : List Ext) (off len : Nat) (l r : Option Nat) : Prop :=
  (∀ y ∈ t, y.1 = off + len → r = some y.2) ∧ (∀ y ∈ t, y.1 + y.2 = off → l = some y.2)

def Ser (lo : List Ext) : PC → Prop
  | .idle => NoAdj lo
  | .g1 off len need | .g2 off len need | .g3 off len need => NoAdj (remExt off len need ++ lo)
  | .f0 _ _ => NoAdj lo
  | .f0b off len r => NoAdj lo ∧ (off + len, r) ∈ lo
  | .f1 off len l r => NoAdj lo ∧ Exact lo off len l r ∧ (∀ k, r = some k → (off + len, k) ∈ lo) ∧
      (∀ k, l = some k → (off - k, k) ∈ lo)
  | .f2 off len l r => NoAdj (rExt off len r ++ lo) ∧ Exact (rExt off len r ++ lo) off len l r ∧
      (∀ k, l = some k → (off - k, k) ∈ lo)
  | .f3 off len l r | .f4 off len l r => NoAdj (rExt off len r ++ (lExt off l ++ lo)) ∧
      Exact (rExt off len r ++ (lExt off l ++ lo)) off len l r
  | .f5 off len | .f6 off len => NoAdj ((off, len) :: lo)
  | .f2b _ _ _ => False
  | .fatal => False

def rank : PC → Nat
  | .idle => 0
  | .g1 .. => 3
  | .g2 .. => 2
  | .g3 .. => 1
  | .f0 .. => 8
  | .f0b .. => 7
  | .f1 .. => 6
  | .f2 .. => 5
  | .f3 .. => 4
  | .f4 .. => 3
  | .f5 .. => 2
  | .f6 .. => 1
  | .f2b .. => 9
  | .fatal => 0

def usedAfter (used : List Ext) : PC → List Ext
  | .g1 off _ need | .g2 off _ need | .g3 off _ need => (off, need) :: used
  | _ => used

theorem noAdj_sub {l m : List Ext} (h : NoAdj m) (hs : ∀ x ∈ l, x ∈ m) : NoAdj l :=
  fun x hx y hy => h x (hs x hx) y (hs y hy)

theorem olLo_of_foc {lo ol used : List Ext} {fl nf : Nat} {pc : PC}
    (h : Foc lo ol used fl nf pc [] [] 0) (he : olHold pc = []) (x : Ext) : x ∈ ol ↔ x ∈ lo := by
  rw [h.perm.mem_iff, he]; simp

end Verif.Extents
