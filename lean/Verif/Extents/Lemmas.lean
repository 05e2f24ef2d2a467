import Verif.Extents.Model

namespace Verif.Extents

/-! ## Invariant of the interleaved extent allocator (proof machinery) -/

/-- How many extents of the list contain block `b`. -/
def cover (l : List Ext) (b : Nat) : Nat := l.countP (fun x => x.1 ≤ b && b < x.1 + x.2)

/-- Sum of the lengths. -/
def size (l : List Ext) : Nat := (l.map (·.2)).sum

def rExt (off len : Nat) : Option Nat → List Ext
  | none => []
  | some k => [(off + len, k)]

def lExt (off : Nat) : Option Nat → List Ext
  | none => []
  | some k => [(off - k, k)]

/-- Blocks held by a process in the middle of an operation. -/
def hold : PC → List Ext
  | .idle => []
  | .g1 off len _ | .g2 off len _ | .g3 off len _ => [(off, len)]
  | .f0 off len | .f0b off len _ | .f1 off len _ _ => [(off, len)]
  | .f2 off len _ r | .f2b off len r => (off, len) :: rExt off len r
  | .f3 off len l r | .f4 off len l r => (off, len) :: (rExt off len r ++ lExt off l)
  | .f5 off len | .f6 off len => [(off, len)]
  | .fatal => []

def remExt (off len need : Nat) : List Ext :=
  if len - need > 0 then [(off + need, len - need)] else []

/-- Entries of the (off, len) tree that belong to a process in the middle of an
operation. -/
def olHold : PC → List Ext
  | .g1 off len _ => [(off, len)]
  | .g2 off len need => (off, len) :: remExt off len need
  | .g3 off len need => remExt off len need
  | .f2 off len _ r | .f2b off len r => rExt off len r
  | .f3 off len l r => rExt off len r ++ lExt off l
  | .f4 off _ l _ => lExt off l
  | .f6 off len => [(off, len)]
  | _ => []

/-- Blocks of a process that are already counted in `numFreeBlocks`. -/
def freeHold : PC → Nat
  | .g1 _ len need | .g2 _ len need | .g3 _ len need => len - need
  | pc => size (hold pc)

def WF : PC → Prop
  | .idle => True
  | .g1 _ len need | .g2 _ len need | .g3 _ len need => 0 < need ∧ need ≤ len
  | .f0 _ len => 0 < len
  | .f0b _ len r => 0 < len ∧ 0 < r
  | .f1 off len l r | .f2 off len l r | .f3 off len l r | .f4 off len l r =>
    0 < len ∧ (∀ k, l = some k → 0 < k ∧ k ≤ off) ∧ (∀ k, r = some k → 0 < k)
  | .f2b _ len r => 0 < len ∧ (∀ k, r = some k → 0 < k)
  | .f5 _ len | .f6 _ len => 0 < len
  | .fatal => False

structure Foc (lo ol used : List Ext) (fl nf : Nat) (pc : PC) (oh oo : List Ext) (ofr : Nat) :
    Prop where
  cov : ∀ b, cover lo b + cover used b + cover (hold pc) b + cover oh b = if b < fl then 1 else 0
  posLo : ∀ x ∈ lo, 0 < x.2
  posUsed : ∀ x ∈ used, 0 < x.2
  perm : ol.Perm (lo ++ (olHold pc ++ oo))
  cnt : nf = size lo + freeHold pc + ofr

def OoIn (oh oo : List Ext) : Prop := ∀ x ∈ oo, 0 < x.2 ∧ 0 < cover oh x.1

theorem cover_cons (x : Ext) (l : List Ext) (b : Nat) :
    cover (x :: l) b = (if x.1 ≤ b ∧ b < x.1 + x.2 then 1 else 0) + cover l b := by
  unfold cover
  rw [List.countP_cons]
  by_cases h : x.1 ≤ b ∧ b < x.1 + x.2 <;> simp [h] <;> omega

theorem cover_nil (b : Nat) : cover [] b = 0 := rfl

theorem cover_append (l m : List Ext) (b : Nat) : cover (l ++ m) b = cover l b + cover m b := by
  simp [cover]

theorem cover_perm {l m : List Ext} (h : l.Perm m) (b : Nat) : cover l b = cover m b :=
  h.countP_eq _

theorem cover_mem {l : List Ext} {x : Ext} (h : x ∈ l) (hp : 0 < x.2) : 0 < cover l x.1 := by
  unfold cover
  rw [List.countP_pos_iff]
  exact ⟨x, h, by simp; omega⟩

theorem cover_mem_of {l : List Ext} {x : Ext} (h : x ∈ l) {b : Nat} (h1 : x.1 ≤ b)
    (h2 : b < x.1 + x.2) : 0 < cover l b := by
  unfold cover
  rw [List.countP_pos_iff]
  exact ⟨x, h, by simp; omega⟩

theorem cover_erase {l : List Ext} {x : Ext} (h : x ∈ l) (b : Nat) :
    cover l b = (if x.1 ≤ b ∧ b < x.1 + x.2 then 1 else 0) + cover (l.erase x) b := by
  rw [cover_perm (List.perm_cons_erase h), cover_cons]

theorem size_cons (x : Ext) (l : List Ext) : size (x :: l) = x.2 + size l := by simp [size]
theorem size_nil : size [] = 0 := rfl
theorem size_append (l m : List Ext) : size (l ++ m) = size l + size m := by simp [size]
theorem size_perm {l m : List Ext} (h : l.Perm m) : size l = size m := by
  unfold size
  exact (h.map _).sum_nat
theorem size_erase {l : List Ext} {x : Ext} (h : x ∈ l) : size l = x.2 + size (l.erase x) := by
  rw [size_perm (List.perm_cons_erase h), size_cons]

/-- Deleting by offset from the (off, len) tree removes exactly the entry `x`,
when `x` is the only entry with its offset. -/
theorem delOL_eq {t : List Ext} {x : Ext} (h : x ∈ t) (hu : ∀ y ∈ t, y.1 = x.1 → y = x) :
    ∃ t', delOL x.1 t = some t' ∧ t.Perm (x :: t') := by
  have hany : t.any (·.1 == x.1) = true := by
    rw [List.any_eq_true]; exact ⟨x, h, by simp⟩
  refine ⟨t.eraseP (·.1 == x.1), by simp [delOL, hany], ?_⟩
  obtain ⟨a, l1, l2, _, ha, hl, he⟩ := List.exists_of_eraseP (p := fun y : Ext => y.1 == x.1) h (by simp)
  have : a = x := hu a (by rw [hl]; simp) (by simpa using ha)
  subst this
  rw [he, hl]
  exact List.perm_middle

theorem insOL_eq {t : List Ext} {x : Ext} (hu : ∀ y ∈ t, y.1 ≠ x.1) :
    insOL x t = some (x :: t) := by
  have : t.any (·.1 == x.1) = false := by
    rw [List.any_eq_false]; intro y hy; simpa using hu y hy
  simp [insOL, this]

theorem insLO_eq {t : List Ext} {x : Ext} (h : x ∉ t) : insLO x t = some (x :: t) := by
  simp [insLO, h]

theorem bestFit_some {need : Nat} {l : List Ext} {x : Ext} (h : bestFit need l = some x) :
    x ∈ l ∧ need ≤ x.2 := by
  induction l generalizing x with
  | nil => simp [bestFit] at h
  | cons y ys ih =>
    simp only [bestFit] at h
    split at h
    · split at h
      · cases h; simp; assumption
      · split at h
        · cases h
          have := ih (by assumption)
          exact ⟨by simp [this.1], this.2⟩
        · cases h; simp; assumption
    · have := ih h
      exact ⟨by simp [this.1], this.2⟩

theorem lastBefore_none {q : Nat → Bool} {l : List Ext} (h : lastBefore q l = none) :
    ∀ y ∈ l, q y.1 = false := by
  induction l with
  | nil => simp
  | cons w ws ih =>
    simp only [lastBefore] at h
    split at h
    · split at h
      · cases h
      · split at h <;> cases h
    · rename_i hq
      intro y hy
      rcases List.mem_cons.1 hy with rfl | hy
      · cases hq' : q y.1
        · rfl
        · exact absurd hq' hq
      · exact ih h y hy

theorem lastBefore_some {q : Nat → Bool} {l : List Ext} {x : Ext} (h : lastBefore q l = some x) :
    x ∈ l ∧ q x.1 = true ∧ ∀ y ∈ l, q y.1 = true → y.1 ≤ x.1 := by
  induction l generalizing x with
  | nil => simp [lastBefore] at h
  | cons y ys ih =>
    simp only [lastBefore] at h
    by_cases hq : q y.1 = true
    · rw [if_pos hq] at h
      cases hw : lastBefore q ys with
      | none =>
        rw [hw] at h
        cases h
        refine ⟨by simp, hq, ?_⟩
        intro z hz hzq
        rcases List.mem_cons.1 hz with rfl | hz
        · exact Nat.le_refl _
        · rw [lastBefore_none hw z hz] at hzq; cases hzq
      | some w =>
        rw [hw] at h
        have := ih hw
        dsimp only at h
        split at h <;> cases h
        · refine ⟨by simp [this.1], this.2.1, ?_⟩
          intro z hz hzq
          rcases List.mem_cons.1 hz with rfl | hz
          · omega
          · exact this.2.2 z hz hzq
        · refine ⟨by simp, hq, ?_⟩
          intro z hz hzq
          rcases List.mem_cons.1 hz with rfl | hz
          · omega
          · have := this.2.2 z hz hzq
            omega
    · rw [if_neg hq] at h
      have := ih h
      refine ⟨by simp [this.1], this.2.1, ?_⟩
      intro z hz hzq
      rcases List.mem_cons.1 hz with rfl | hz
      · contradiction
      · exact this.2.2 z hz hzq

/-- Every (off, len) entry of a well-formed process lies in the blocks it holds. -/
theorem olHold_in {pc : PC} (h : WF pc) : ∀ x ∈ olHold pc, 0 < x.2 ∧ 0 < cover (hold pc) x.1 := by
  intro x hx
  cases pc with
  | g1 off len need =>
    simp only [olHold, List.mem_singleton] at hx; subst hx
    simp only [WF] at h
    refine ⟨by dsimp only; omega, cover_mem (by simp [hold]) (by dsimp only; omega)⟩
  | g2 off len need =>
    simp only [olHold, remExt, List.mem_cons] at hx
    simp only [WF] at h
    simp only [hold, cover_cons, cover_nil]
    rcases hx with rfl | hx
    · refine ⟨by dsimp only; omega, by dsimp only; split <;> omega⟩
    · split at hx <;> simp at hx
      subst hx; dsimp only; split <;> omega
  | g3 off len need =>
    simp only [olHold, remExt] at hx
    simp only [WF] at h
    simp only [hold, cover_cons, cover_nil]
    split at hx <;> simp at hx
    subst hx; dsimp only; split <;> omega
  | f2 off len l r =>
    simp only [WF] at h
    cases r with
    | none => simp [olHold, rExt] at hx
    | some k =>
      have := h.2.2 k rfl
      simp only [olHold, rExt, List.mem_singleton] at hx; subst hx
      refine ⟨by dsimp only; omega, cover_mem (by simp [hold, rExt]) (by dsimp only; omega)⟩
  | f2b off len r =>
    simp only [WF] at h
    cases r with
    | none => simp [olHold, rExt] at hx
    | some k =>
      have := h.2 k rfl
      simp only [olHold, rExt, List.mem_singleton] at hx; subst hx
      refine ⟨by dsimp only; omega, cover_mem (by simp [hold, rExt]) (by dsimp only; omega)⟩
  | f3 off len l r =>
    simp only [WF] at h
    have hp : 0 < x.2 := by
      simp only [olHold, List.mem_append] at hx
      rcases hx with hx | hx
      · cases r with
        | none => simp [rExt] at hx
        | some k => simp only [rExt, List.mem_singleton] at hx; subst hx; exact h.2.2 k rfl
      · cases l with
        | none => simp [lExt] at hx
        | some k => simp only [lExt, List.mem_singleton] at hx; subst hx; exact (h.2.1 k rfl).1
    exact ⟨hp, cover_mem (by simp only [hold]; exact List.mem_cons_of_mem _ hx) hp⟩
  | f4 off len l r =>
    simp only [WF] at h
    cases l with
    | none => simp [olHold, lExt] at hx
    | some k =>
      have h1 := h.2.1 k rfl
      simp only [olHold, lExt, List.mem_singleton] at hx
      subst hx
      exact ⟨h1.1, cover_mem (by simp [hold, lExt]) h1.1⟩
  | f6 off len =>
    simp only [olHold, List.mem_singleton] at hx; subst hx
    simp only [WF] at h
    refine ⟨by dsimp only; omega, cover_mem (by simp [hold]) (by dsimp only; omega)⟩
  | _ => simp [olHold] at hx

section
variable {lo ol used oh oo : List Ext} {fl nf ofr : Nat} {pc : PC}

/-- An (off, len) entry starting in a block held by the focused process is one of
its own entries. -/
theorem Foc.own (h : Foc lo ol used fl nf pc oh oo ofr) (ho : OoIn oh oo) {x : Ext}
    (hx : x ∈ ol) (hc : 0 < cover (hold pc) x.1) : x ∈ olHold pc := by
  have hm := (h.perm.mem_iff (a := x)).1 hx
  have hb := h.cov x.1
  rw [List.mem_append, List.mem_append] at hm
  rcases hm with hm | hm | hm
  · have := cover_mem hm (h.posLo x hm)
    split at hb <;> omega
  · exact hm
  · have := (ho x hm).2
    split at hb <;> omega

theorem Foc.notLo (h : Foc lo ol used fl nf pc oh oo ofr) {x : Ext}
    (hc : 0 < cover (hold pc) x.1) : x ∉ lo := by
  intro hx
  have hb := h.cov x.1
  have := cover_mem hx (h.posLo x hx)
  split at hb <;> omega

theorem Foc.olPos (h : Foc lo ol used fl nf pc oh oo ofr) (ho : OoIn oh oo) (hw : WF pc) {x : Ext}
    (hx : x ∈ ol) : 0 < x.2 := by
  have hm := (h.perm.mem_iff (a := x)).1 hx
  rw [List.mem_append, List.mem_append] at hm
  rcases hm with hm | hm | hm
  · exact h.posLo x hm
  · exact (olHold_in hw x hm).1
  · exact (ho x hm).1

end

end Verif.Extents
