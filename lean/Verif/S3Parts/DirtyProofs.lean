import Verif.S3Parts.Dirty

/-! # The list of parts to upload: proofs -/

namespace Verif.S3Parts.Dirty

/-- The part is in one of the slots. -/
def Listed (s : DSt) (y : Nat) : Prop := ∃ i, i < slotsNum ∧ s.slot i = some y

/-- The process is about to put the part into a slot. -/
def Carries (s : DSt) (y : Nat) : DPc → Prop
  | .at _ _ cur => cur = y
  | .mid _ _ cur _ => cur = y
  | _ => False

/-- What the place of the process says about the slots. -/
def Place (s : DSt) : DPc → Prop
  | .idle => True
  | .at e i cur => i < slotsNum ∧ (i = 0 ∧ cur = e ∨ 0 < i ∧ s.slot 0 = some e)
  | .mid e i cur tmp => i < slotsNum ∧ (i = 0 ∧ cur = e ∨ 0 < i ∧ s.slot 0 = some e) ∧ tmp = s.slot i
  | .fl i => i ≤ slotsNum ∧ ∀ j, j < i → s.slot j = none
  | .flc i => i < slotsNum ∧ (∀ j, j < i → s.slot j = none) ∧
      ∀ y, s.slot i = some y → s.pend y = true → ∃ j, i < j ∧ j < slotsNum ∧ s.slot j = some y

/-- The invariant while only process `p` may be in one of the functions. -/
def DInv (s : DSt) (p : Nat) : Prop :=
  Place s (s.pc p) ∧ ∀ y, s.pend y = true → Listed s y ∨ Carries s y (s.pc p)

theorem upd_self {α : Type} (f : Nat → α) (x : Nat) (a : α) : upd f x a x = a := by simp [upd]

theorem upd_ne {α : Type} (f : Nat → α) {x y : Nat} (a : α) (h : y ≠ x) : upd f x a y = f y := by simp [upd, h]

theorem dstep_other {s s' : DSt} {p q : Nat} {a : DAct} (h : dstep s p a = some s') (hq : q ≠ p) :
    s'.pc q = s.pc q := by
  cases a <;> simp only [dstep, dgo] at h
  all_goals
    repeat' split at h
    all_goals first
      | (injection h with h; subst h; exact upd_ne _ _ hq)
      | cases h

theorem dstep_inv {s s' : DSt} {p : Nat} {a : DAct} (hi : DInv s p) (h : dstep s p a = some s') : DInv s' p := by
  obtain ⟨hp, hc⟩ := hi
  have hN : slotsNum = 4 := rfl
  cases a with
  | wrote e =>
    simp only [dstep] at h
    split at h
    · rename_i h0
      injection h with h
      subst h
      refine ⟨by simp [Place, upd_self, hN], ?_⟩
      intro y hy
      dsimp only at hy ⊢
      rw [upd_self]
      by_cases hye : y = e
      · right
        simp [Carries, hye]
      · rw [upd_ne _ _ hye] at hy
        rcases hc y hy with h1 | h1
        · left; exact h1
        · rw [h0] at h1; exact absurd h1 (by simp [Carries])
    · cases h
  | flush =>
    simp only [dstep] at h
    split at h
    · rename_i h0
      injection h with h
      subst h
      refine ⟨by simp [Place, upd_self], ?_⟩
      intro y hy
      rcases hc y hy with h1 | h1
      · left; exact h1
      · rw [h0] at h1; exact absurd h1 (by simp [Carries])
    · cases h
  | go =>
    simp only [dstep, dgo] at h
    cases hpc : s.pc p with
    | idle => rw [hpc] at h; cases h
    | «at» e i cur =>
      rw [hpc] at h hp hc
      injection h with h
      subst h
      obtain ⟨hp1, hp2⟩ := hp
      refine ⟨by simp only [Place, upd_self]; exact ⟨hp1, hp2, trivial⟩, ?_⟩
      intro y hy
      dsimp only
      rw [upd_self]
      rcases hc y hy with h1 | h1
      · left; exact h1
      · right; exact h1
    | mid e i cur tmp =>
      rw [hpc] at h hp hc
      obtain ⟨hil, hfirst, htmp⟩ := hp
      dsimp only at h
      have key : ∀ y, s.pend y = true → (∃ j, j < slotsNum ∧ upd s.slot i (some cur) j = some y) ∨ tmp = some y := by
        intro y hy
        rcases hc y hy with ⟨j, h1, h2⟩ | h1
        · by_cases hj : j = i
          · right; rw [htmp, ← hj]; exact h2
          · left; exact ⟨j, h1, by rw [upd_ne _ _ hj]; exact h2⟩
        · left; exact ⟨i, hil, by rw [upd_self]; exact congrArg some h1⟩
      cases htm : tmp with
      | none =>
        rw [htm] at h
        injection h with h
        subst h
        refine ⟨by simp [Place, upd_self], ?_⟩
        intro y hy
        rcases key y hy with h1 | h1
        · left; exact h1
        · rw [htm] at h1; cases h1
      | some z =>
        rw [htm] at h key
        dsimp only at h
        split at h
        · rename_i hze
          injection h with h
          subst h
          refine ⟨by simp [Place, upd_self], ?_⟩
          intro y hy
          rcases key y hy with h1 | h1
          · left; exact h1
          · left
            injection h1 with h1
            rw [h1] at hze
            rcases hfirst with ⟨f1, f2⟩ | ⟨f1, f2⟩
            · exact ⟨i, hil, by dsimp only; rw [upd_self, f2, hze]⟩
            · exact ⟨0, by omega, by dsimp only; rw [upd_ne _ _ (by omega), f2, hze]⟩
        · split at h
          · injection h with h
            subst h
            refine ⟨by simp [Place, upd_self], ?_⟩
            intro y hy
            dsimp only at hy
            by_cases hyz : y = z
            · rw [hyz, upd_self] at hy; cases hy
            · rw [upd_ne _ _ hyz] at hy
              rcases key y hy with h1 | h1
              · left; exact h1
              · injection h1 with h1; exact absurd h1.symm hyz
          · rename_i hi4
            injection h with h
            subst h
            refine ⟨?_, ?_⟩
            · simp only [Place, upd_self]
              refine ⟨by omega, Or.inr ⟨by omega, ?_⟩⟩
              rcases hfirst with ⟨f1, f2⟩ | ⟨f1, f2⟩
              · rw [f1, upd_self, f2]
              · rw [upd_ne _ _ (by omega), f2]
            intro y hy
            dsimp only
            rw [upd_self]
            rcases key y hy with h1 | h1
            · left; exact h1
            · right; injection h1
    | fl i =>
      rw [hpc] at h hp hc
      obtain ⟨hil, hbel⟩ := hp
      dsimp only at h
      split at h
      · rename_i hlt
        cases hs : s.slot i with
        | none =>
          rw [hs] at h
          injection h with h
          subst h
          refine ⟨?_, ?_⟩
          · simp only [Place, upd_self]
            exact ⟨hlt, hbel, fun y hy => by rw [hs] at hy; cases hy⟩
          · intro y hy
            rcases hc y hy with h1 | h1
            · left; exact h1
            · exact absurd h1 (by simp [Carries])
        | some z =>
          rw [hs] at h
          injection h with h
          subst h
          refine ⟨?_, ?_⟩
          · simp only [Place, upd_self]
            refine ⟨hlt, hbel, ?_⟩
            intro y hy hpy
            rw [hs] at hy
            injection hy with hy
            rw [← hy, upd_self] at hpy
            cases hpy
          · intro y hy
            dsimp only at hy
            by_cases hyz : y = z
            · rw [hyz, upd_self] at hy; cases hy
            · rw [upd_ne _ _ hyz] at hy
              rcases hc y hy with h1 | h1
              · left; exact h1
              · exact absurd h1 (by simp [Carries])
      · injection h with h
        subst h
        refine ⟨by simp [Place, upd_self], ?_⟩
        intro y hy
        rcases hc y hy with h1 | h1
        · left; exact h1
        · exact absurd h1 (by simp [Carries])
    | flc i =>
      rw [hpc] at h hp hc
      obtain ⟨hil, hbel, hlater⟩ := hp
      injection h with h
      subst h
      refine ⟨?_, ?_⟩
      · simp only [Place, upd_self]
        refine ⟨by omega, ?_⟩
        intro j hj
        by_cases hji : j = i
        · rw [hji, upd_self]
        · rw [upd_ne _ _ hji]; exact hbel j (by omega)
      · intro y hy
        left
        dsimp only at hy
        rcases hc y hy with ⟨j, h1, h2⟩ | h1
        · by_cases hji : j = i
          · subst hji
            obtain ⟨k, h3, h4, h5⟩ := hlater y h2 hy
            exact ⟨k, h4, by dsimp only; rw [upd_ne _ _ (by omega)]; exact h5⟩
          · exact ⟨j, h1, by dsimp only; rw [upd_ne _ _ hji]; exact h2⟩
        · exact absurd h1 (by simp [Carries])

/-- The processes below `n` are outside the functions except perhaps `p`. -/
def Alone (n : Nat) (s : DSt) (p : Nat) : Prop := ∀ q, q < n → q ≠ p → s.pc q = .idle

/-- The invariant of the whole: the written parts are in the list or carried by the one process which is inside. -/
def GInv (n : Nat) (s : DSt) : Prop := ∃ p, p < n ∧ Alone n s p ∧ DInv s p

theorem apart_alone {n : Nat} {s : DSt} {p : Nat} {a : DAct} {es : List (Nat × DAct)}
    (h : apart n s ((p, a) :: es) = true) :
    Alone n s p ∧ ∀ s', dstep s p a = some s' → apart n s' es = true := by
  simp only [apart, Bool.and_eq_true, List.all_eq_true, List.mem_range, Bool.or_eq_true, beq_iff_eq] at h
  refine ⟨fun q hq hne => ?_, ?_⟩
  · rcases h.1 q hq with h1 | h1
    · exact absurd h1 hne
    · exact h1
  · intro s' hs
    have h2 := h.2
    rw [hs] at h2
    exact h2

theorem ginv_move {n : Nat} {s : DSt} {p : Nat} (hg : GInv n s) (hp : p < n) (ha : Alone n s p) : DInv s p := by
  obtain ⟨q, hq, haq, hd⟩ := hg
  by_cases hqp : q = p
  · rw [← hqp]; exact hd
  · have h1 : s.pc p = .idle := haq p hp (fun h => hqp h.symm)
    have h2 : s.pc q = .idle := ha q hq hqp
    obtain ⟨d1, d2⟩ := hd
    refine ⟨by rw [h1]; trivial, ?_⟩
    rw [h2] at d2
    rw [h1]
    exact d2

theorem drun_inv {n : Nat} : ∀ (es : List (Nat × DAct)) (s s' : DSt), GInv n s → apart n s es = true →
    drun n s es = some s' → GInv n s' := by
  intro es
  induction es with
  | nil => intro s s' hg _ h; injection h with h; subst h; exact hg
  | cons e es ih =>
    obtain ⟨p, a⟩ := e
    intro s s' hg ha h
    rw [drun] at h
    split at h
    · rename_i hp
      obtain ⟨h1, h2⟩ := apart_alone ha
      have hd := ginv_move hg hp h1
      cases hs : dstep s p a with
      | none => rw [hs] at h; cases h
      | some t =>
        rw [hs] at h
        refine ih t s' ⟨p, hp, ?_, dstep_inv hd hs⟩ (h2 t hs) h
        intro q hq hne
        rw [dstep_other hs hne]
        exact h1 q hq hne
    · cases h

theorem ginv_init {n : Nat} (hn : 0 < n) : GInv n dinit :=
  ⟨0, hn, fun _ _ _ => rfl, trivial, fun y hy => by cases hy⟩

theorem ginv_idle {n : Nat} {s : DSt} (hg : GInv n s) (hidle : ∀ q, q < n → s.pc q = .idle) {y : Nat}
    (hy : s.pend y = true) : Listed s y := by
  obtain ⟨p, hp, _, _, hc⟩ := hg
  rcases hc y hy with h | h
  · exact h
  · rw [hidle p hp] at h
    exact absurd h (by simp [Carries])

theorem ginv_flushed {n : Nat} {s : DSt} (hg : GInv n s) {p : Nat} (hp : p < n) (hf : s.pc p = .fl slotsNum) (y : Nat) :
    s.pend y = false := by
  cases hy : s.pend y with
  | false => rfl
  | true =>
    obtain ⟨q, hq, ha, d1, d2⟩ := hg
    by_cases hqp : q = p
    · rw [hqp, hf] at d1 d2
      rcases d2 y hy with ⟨i, h1, h2⟩ | h
      · rw [d1.2 i h1] at h2; cases h2
      · exact absurd h (by simp [Carries])
    · rw [ha p hp (fun h => hqp h.symm)] at hf; cases hf

end Verif.S3Parts.Dirty
