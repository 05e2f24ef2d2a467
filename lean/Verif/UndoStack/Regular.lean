import Verif.UndoStack.Step

/-! # Lists of changes and what is wanted -/

namespace Verif.UndoStack

/-- One event, all together. -/
theorem inv_step {s : St} {A : Abs} {ro : List (List Call)} (h : Inv s A ro) (o : Op) :
    (step s o).calls = s.calls ++ (astep A o).1 ∧
    ∃ ro', (ro.flatten = x → ro'.flatten = (rolledStep [x] s.calls (step s o).calls o).flatten) ∧
      Inv (step s o) (astep A o).2 ro' := by
  cases o with
  | change gap t =>
    exact ⟨by simp [step, addChange, astep], ro, by simp [rolledStep], inv_change h gap t⟩
  | onc gap t => exact ⟨by simp [step, addOnc, astep], ro, by simp [rolledStep], inv_onc h gap t⟩
  | retain => exact ⟨by simp [step, astep], ro, by simp [rolledStep], inv_retain h⟩
  | start gap =>
    refine ⟨?_, ro, by simp [rolledStep], inv_start h gap⟩
    have h1 : (astep A (.start gap)).1 = [] := by
      simp only [astep]; repeat' split
      all_goals rfl
    have h2 : (startSub s gap).calls = s.calls := by
      simp only [startSub, addSub]; repeat' split
      all_goals rfl
    rw [h1, List.append_nil]; exact h2
  | release =>
    refine ⟨?_, ro, by simp [rolledStep], inv_release h⟩
    have h1 : (astep A .release).1 = [] := by
      simp only [astep]; repeat' split
      all_goals rfl
    have h2 : (commitSub s).calls = s.calls := by
      simp only [commitSub]; repeat' split
      all_goals rfl
    rw [h1, List.append_nil]; exact h2
  | rollback gap =>
    obtain ⟨h1, ro', h2, h3⟩ := inv_rollback h gap
    refine ⟨h1, ro', ?_, h3⟩
    intro e
    show _ = (((abortSub s gap).calls.drop s.calls.length) :: [x]).flatten
    rw [h1, List.drop_left, h2, e]
    simp
  | commit =>
    obtain ⟨h1, h2⟩ := inv_commit h
    exact ⟨h1, [], by simp [rolledStep], h2⟩
  | abort =>
    obtain ⟨h1, h2⟩ := inv_abort h
    exact ⟨h1, [], by simp [rolledStep], h2⟩

theorem rolledStep_flatten {d d' : List (List Call)} (h : d.flatten = d'.flatten)
    (a b : List Call) (o : Op) :
    (rolledStep d a b o).flatten = (rolledStep d' a b o).flatten := by
  cases o <;> simp [rolledStep, h]

/-- Whole runs: there are lists of changes held, and the branch items stand for the rollbacks. -/
theorem run_inv (ops : List Op) : ∀ (s : St) (A : Abs) (ro done : List (List Call)), Inv s A ro →
    ro.flatten = done.flatten →
    ∃ A' ro', Inv (ops.foldl step s) A' ro' ∧ ro'.flatten = (rolled done s ops).flatten := by
  induction ops with
  | nil => intro s A ro done h hd; exact ⟨A, ro, h, hd⟩
  | cons o os ih =>
    intro s A ro done h hd
    obtain ⟨_, ro', h2, h3⟩ := inv_step (x := done.flatten) h o
    refine ih (step s o) _ ro' _ h3 ?_
    rw [h2 hd]
    exact rolledStep_flatten (by simp) _ _ _

/-- What is pending, and the lists of changes held, in a regular run. -/
structure Rel (A : Abs) (P : Pending) (d : Nat) (y : Bool) (f : Option Nat) : Prop where
  top : P.top = A.g
  below : ∃ k, P.below = A.gs ++ List.replicate k []
  depth : P.below.length = d
  len : A.subs.length = d + 1
  dirty : A.ret = y
  fnone : f = none → A.min = 0
  fsome : ∀ k, f = some k → A.min ≠ 0 ∧
    ∀ x ss, (x :: ss) <:+ A.subs → (A.min ≤ x ↔ k ≤ ss.length)

/-- How `regular` goes on after an event. -/
def next (d : Nat) (y : Bool) (f : Option Nat) : Op → Nat × Bool × Option Nat
  | .change _ _ => (d, true, f)
  | .onc _ _ => (d, true, f)
  | .retain => (d, true, f)
  | .start _ => (d + 1, y, if y then (match f with | none => some d | some k => some k) else f)
  | .release => (d - 1, y, f)
  | .rollback _ => (d - 1, y, f)
  | .commit => (0, false, none)
  | .abort => (0, false, none)

theorem regular_cons {d : Nat} {y : Bool} {f : Option Nat} {o : Op} {os : List Op}
    (h : regular d y f (o :: os)) :
    regular (next d y f o).1 (next d y f o).2.1 (next d y f o).2.2 os ∧
      (∀ gap k, o = .start gap → y = true → f = some k → k ≤ d) := by
  cases o <;> simp only [regular, next] at h ⊢ <;> try exact ⟨h, by simp⟩
  case start gap =>
    cases y <;> cases f <;> simp_all

theorem suffix_tail {α : Type} {a : α} {l t : List α} (h : t <:+ l) : t <:+ a :: l :=
  h.trans (List.suffix_cons _ _)

theorem rel_step {s : St} {A : Abs} {ro : List (List Call)} (h : Inv s A ro) {P : Pending} {d : Nat}
    {y : Bool} {f : Option Nat} (hR : Rel A P d y f) (o : Op)
    (hreg : ∀ gap k, o = .start gap → y = true → f = some k → k ≤ d) :
    (astep A o).1 = (wantStep P o).1 ∧
      Rel (astep A o).2 (wantStep P o).2 (next d y f o).1 (next d y f o).2.1
        (next d y f o).2.2 := by
  obtain ⟨k, hk⟩ := hR.below
  cases o with
  | change gap t =>
    exact ⟨rfl, by simp [wantStep, astep, hR.top], hR.below, hR.depth, hR.len, rfl, hR.fnone,
      hR.fsome⟩
  | onc gap t =>
    exact ⟨rfl, by simp [wantStep, astep, hR.top], hR.below, hR.depth, hR.len, rfl, hR.fnone,
      hR.fsome⟩
  | retain =>
    exact ⟨rfl, hR.top, hR.below, hR.depth, hR.len, rfl, hR.fnone, hR.fsome⟩
  | start gap =>
    rcases hA : A.subs with _ | ⟨p, r⟩
    · have := hR.len; rw [hA] at this; simp at this
    have hlen : r.length = d := by have := hR.len; rw [hA] at this; simpa using this
    have hd := h.dec
    rw [hA] at hd
    have hp := h.top p (by simp [hA])
    have hlast : ∀ x, x ∈ p :: r → x ≤ A.last := fun x hx => (h.top x (by rw [hA]; exact hx)).1
    cases y with
    | false =>
      have hr := hR.dirty
      obtain ⟨c1, c2, c3⟩ := h.clean hr
      simp only [astep, hA, hr, Bool.false_eq_true, if_false, wantStep, next, true_and]
      refine
        { top := c2.symm, below := ⟨k + 1, ?_⟩, depth := by simp [hR.depth],
          len := by simp [hlen], dirty := by simp [hr], fnone := hR.fnone, fsome := ?_ }
      · simp [hk, c3, hR.top, c2, List.replicate_succ]
      · intro q hq
        exact absurd c1 (hR.fsome q hq).1
    | true =>
      have hr := hR.dirty
      cases hf : f with
      | none =>
        have hm := hR.fnone hf
        have hgs : A.gs = [] := by
          cases hq : A.gs with
          | nil => rfl
          | cons =>
            obtain ⟨_, _, _, _, _, _, _, _, _, _, h2, _⟩ := h.lv.level_inv hq
            contradiction
        simp only [astep, hA, hr, if_true, hm, wantStep, next, true_and]
        refine
          { top := rfl, below := ⟨k, ?_⟩, depth := by simp [hR.depth],
            len := by simp [hlen], dirty := by simp [hr], fnone := by simp, fsome := ?_ }
        · simp [hk, hgs, hR.top]
        · intro q hq
          cases hq
          refine ⟨hp.2, ?_⟩
          intro x ss hx
          dsimp only at hx ⊢
          rcases List.suffix_cons_iff.mp hx with e | hx
          · cases e; simp [hlen]; omega
          rcases List.suffix_cons_iff.mp hx with e | hx
          · cases e; simp [hlen]
          · have h1 : x < p := (List.pairwise_cons.mp hd).1 x (hx.mem (by simp))
            have h2 := hx.length_le
            simp at h2
            omega
      | some q =>
        obtain ⟨hm, hsuf⟩ := hR.fsome q hf
        have hqd := hreg gap q rfl rfl hf
        have hle : A.min ≤ p := (hsuf p r (by rw [hA]; exact List.suffix_rfl)).mpr (by omega)
        simp only [astep, hA, hr, if_true, if_neg hm, if_pos hle, wantStep, next, true_and]
        refine
          { top := rfl, below := ⟨k, ?_⟩, depth := by simp [hR.depth],
            len := by simp [hlen], dirty := by simp [hr], fnone := by simp, fsome := ?_ }
        · simp [hk, hR.top]
        · intro q' hq'
          cases hq'
          refine ⟨hm, ?_⟩
          intro x ss hx
          dsimp only at hx ⊢
          rcases List.suffix_cons_iff.mp hx with e | hx
          · cases e; simp [hlen]; omega
          · exact hsuf x ss (by rw [hA]; exact hx)
  | release =>
    rcases hA : A.subs with _ | ⟨a, _ | ⟨p, r⟩⟩
    · have := hR.len; rw [hA] at this; simp at this
    · have hd0 : d = 0 := by have := hR.len; rw [hA] at this; simpa using this.symm
      have hb : P.below = [] := List.length_eq_zero_iff.mp (by rw [hR.depth, hd0])
      simp only [astep, hA, wantStep, hb, next, hd0, true_and]
      subst hd0
      exact hR
    · have hlen : r.length + 1 = d := by have := hR.len; rw [hA] at this; simpa using this
      have hfs : ∀ q, f = some q → A.min ≠ 0 ∧
          ∀ x ss, (x :: ss) <:+ p :: r → (A.min ≤ x ↔ q ≤ ss.length) := fun q hq =>
        ⟨(hR.fsome q hq).1, fun x ss hx => (hR.fsome q hq).2 x ss (by rw [hA]; exact suffix_tail hx)⟩
      cases hg : A.gs with
      | nil =>
        rw [hg, List.nil_append] at hk
        cases k with
        | zero => have := hR.depth; rw [hk] at this; simp at this; omega
        | succ k =>
          have hkd : k + 1 = d := by have := hR.depth; rw [hk] at this; simpa using this
          rw [List.replicate_succ] at hk
          simp only [astep, hA, hg, wantStep, hk, next, true_and]
          exact
            { top := by simp [hR.top], below := ⟨k, by simp [hg]⟩, depth := by simp; omega,
              len := by simp; omega, dirty := hR.dirty, fnone := hR.fnone, fsome := hfs }
      | cons q qs =>
        rw [hg, List.cons_append] at hk
        have hkd := hR.depth
        rw [hk] at hkd
        simp only [List.length_cons] at hkd
        simp only [astep, hA, hg, wantStep, hk, next, true_and]
        exact
          { top := by simp [hR.top], below := ⟨k, rfl⟩, depth := by dsimp only; omega,
            len := by simp; omega, dirty := hR.dirty, fnone := hR.fnone, fsome := hfs }
  | rollback gap =>
    rcases hA : A.subs with _ | ⟨a, _ | ⟨p, r⟩⟩
    · have := hR.len; rw [hA] at this; simp at this
    · have hd0 : d = 0 := by have := hR.len; rw [hA] at this; simpa using this.symm
      have hb : P.below = [] := List.length_eq_zero_iff.mp (by rw [hR.depth, hd0])
      simp only [astep, hA, wantStep, hb, next, hd0, true_and]
      subst hd0
      exact hR
    · have hlen : r.length + 1 = d := by have := hR.len; rw [hA] at this; simpa using this
      have hfs : ∀ q, f = some q → A.min ≠ 0 ∧
          ∀ x ss, (x :: ss) <:+ p :: r → (A.min ≤ x ↔ q ≤ ss.length) := fun q hq =>
        ⟨(hR.fsome q hq).1, fun x ss hx => (hR.fsome q hq).2 x ss (by rw [hA]; exact suffix_tail hx)⟩
      cases hg : A.gs with
      | nil =>
        rw [hg, List.nil_append] at hk
        cases k with
        | zero => have := hR.depth; rw [hk] at this; simp at this; omega
        | succ k =>
          have hkd : k + 1 = d := by have := hR.depth; rw [hk] at this; simpa using this
          rw [List.replicate_succ] at hk
          simp only [astep, hA, hg, wantStep, hk, next, hR.top, true_and]
          exact
            { top := rfl, below := ⟨k, by simp [hg]⟩, depth := by simp; omega,
              len := by simp; omega, dirty := hR.dirty, fnone := hR.fnone, fsome := hfs }
      | cons q qs =>
        rw [hg, List.cons_append] at hk
        have hkd := hR.depth
        rw [hk] at hkd
        simp only [List.length_cons] at hkd
        simp only [astep, hA, hg, wantStep, hk, next, hR.top, true_and]
        exact
          { top := rfl, below := ⟨k, rfl⟩, depth := by dsimp only; omega,
            len := by simp; omega, dirty := hR.dirty, fnone := hR.fnone, fsome := hfs }
  | commit =>
    have e : P.top ++ P.below.flatten = A.g ++ A.gs.flatten := by
      rw [hR.top, hk]; simp
    simp only [astep, wantStep, e, next, true_and]
    exact ⟨rfl, ⟨0, rfl⟩, rfl, rfl, rfl, fun _ => rfl, by simp⟩
  | abort =>
    have e : P.top ++ P.below.flatten = A.g ++ A.gs.flatten := by
      rw [hR.top, hk]; simp
    simp only [astep, wantStep, e, next, true_and]
    exact ⟨rfl, ⟨0, rfl⟩, rfl, rfl, rfl, fun _ => rfl, by simp⟩

theorem run_want (ops : List Op) : ∀ (s : St) (A : Abs) (ro : List (List Call)) (P : Pending)
    (d : Nat) (y : Bool) (f : Option Nat), Inv s A ro → Rel A P d y f → regular d y f ops →
    (ops.foldl step s).calls = s.calls ++ want P ops := by
  induction ops with
  | nil => intro s A ro P d y f _ _ _; simp [want]
  | cons o os ih =>
    intro s A ro P d y f h hR hreg
    obtain ⟨hr1, hr2⟩ := regular_cons hreg
    obtain ⟨h1, ro', _, h3⟩ := inv_step (x := []) h o
    obtain ⟨h4, h5⟩ := rel_step h hR o hr2
    have := ih (step s o) _ ro' _ _ _ _ h3 h5 hr1
    rw [List.foldl_cons, this, h1, h4, want, List.append_assoc]

end Verif.UndoStack
