import Verif.UndoStack.Regular

/-!
# The undo stack: theorems

C56 and C57 hold in all runs.  C24 holds in regular runs: no savepoint is started outside the
level in which the first savepoint after the first change was started.  A transaction that
makes a change before its first savepoint is always regular.  In all runs each change of an
aborted transaction is undone exactly once (`C24_partial_once`).  `C24_violated`: four savepoint
commands after which a rollback to a savepoint also undoes what was done before it.
-/

namespace Verif.UndoStack

/-- C24 in regular runs.  Missing: runs in which a savepoint is started outside the level of the
first recorded one, where the claim fails (`C24_violated`). -/
theorem C24_partial (n : Nat) (ops : List Op) (h : regular 0 false none ops) :
    C24 (run n ops) ops := by
  have hR : Rel ⟨[1], 1, false, 0, [], []⟩ ⟨[], []⟩ 0 false none :=
    ⟨rfl, ⟨0, rfl⟩, rfl, rfl, rfl, fun _ => rfl, by simp⟩
  have := run_want ops (St.init n) _ _ _ _ _ _ (init_inv n) hR h
  simpa [C24, run, St.init] using this

/-- C56 in all runs. -/
theorem C56_ordered (n : Nat) (ops : List Op) : C56 (run n ops) := by
  obtain ⟨A, ro, h, _⟩ := run_inv ops (St.init n) _ _ [] (init_inv n) rfl
  exact h.ok

/-- C57 in all runs. -/
theorem C57_branches (n : Nat) (ops : List Op) : C57 n ops := by
  obtain ⟨A, ro, h, hro⟩ := run_inv ops (St.init n) _ _ [] (init_inv n) rfl
  have := h.br.apply ((run n ops).next + 1) ((run n ops).next + 1)
    (h.brLt.mono (by simp [run])) (h.brLt.mono (by simp [run]))
  rw [hro] at this
  exact this

/-- No transaction ends in these events. -/
def oneXact (ops : List Op) : Prop := ∀ o, o ∈ ops → o ≠ .commit ∧ o ≠ .abort

theorem regular_floor_zero (ops : List Op) : ∀ d, oneXact ops → regular d true (some 0) ops := by
  induction ops with
  | nil => intro d _; trivial
  | cons o os ih =>
    intro d h
    have h' : oneXact os := fun x hx => h x (List.mem_cons_of_mem _ hx)
    have ho := h o (by simp)
    cases o <;> simp only [regular, if_true] <;> first
      | exact ih _ h'
      | exact ⟨Nat.zero_le _, ih _ h'⟩
      | simp_all

theorem regular_dirty (ops : List Op) (h : oneXact ops) : regular 0 true none ops := by
  induction ops with
  | nil => trivial
  | cons o os ih =>
    have h' : oneXact os := fun x hx => h x (List.mem_cons_of_mem _ hx)
    have ho := h o (by simp)
    cases o <;> simp only [regular, if_true] <;> first
      | exact ih h'
      | exact regular_floor_zero os _ h'
      | simp_all

theorem regular_last (ops : List Op) (e : Op) (he : e = .commit ∨ e = .abort) :
    ∀ d y f, oneXact ops → regular d y f ops → regular d y f (ops ++ [e]) := by
  induction ops with
  | nil => intro d y f _ _; rcases he with e | e <;> subst e <;> simp [regular]
  | cons o os ih =>
    intro d y f h hr
    have h' : oneXact os := fun x hx => h x (List.mem_cons_of_mem _ hx)
    have ho := h o (by simp)
    cases o <;> simp only [regular, List.cons_append] at hr ⊢ <;> try exact ih _ _ _ h' hr
    case start gap =>
      cases y <;> simp only [Bool.false_eq_true, if_false, if_true] at hr ⊢
      · exact ih _ _ _ h' hr
      · cases f <;> simp only at hr ⊢
        · exact ih _ _ _ h' hr
        · exact ⟨hr.1, ih _ _ _ h' hr.2⟩
    all_goals simp_all

/-- C24 for a transaction that makes a change first, then does anything, and then ends.
Missing: transactions whose first change is made inside a savepoint. -/
theorem C24_partial_change_first (n gap tag : Nat) (ops : List Op) (e : Op)
    (he : e = .commit ∨ e = .abort) (h : oneXact ops) :
    C24 (run n (.change gap tag :: ops ++ [e])) (.change gap tag :: ops ++ [e]) := by
  apply C24_partial
  have := regular_last (.change gap tag :: ops) e he 0 false none
    (by intro o ho; rcases List.mem_cons.mp ho with e | e
        · subst e; simp
        · exact h o e) (by simpa [regular] using regular_dirty ops h)
  simpa using this

/-- The undo of all changes made. -/
def allUndone : List Op → List Call
  | [] => []
  | .change _ t :: os => ⟨.abort, t⟩ :: allUndone os
  | .onc _ t :: os => ⟨.abort, t⟩ :: allUndone os
  | _ :: os => allUndone os

theorem astep_perm (A : Abs) (o : Op) (h : o ≠ .commit) (h0 : A.min = 0 → A.gs = []) :
    ((astep A o).1 ++ undoAll ((astep A o).2.g ++ (astep A o).2.gs.flatten)).Perm
      (allUndone [o] ++ undoAll (A.g ++ A.gs.flatten)) := by
  cases o with
  | commit => exact absurd rfl h
  | change gap t => exact List.Perm.refl _
  | onc gap t => exact List.Perm.refl _
  | retain => exact List.Perm.refl _
  | start gap =>
    cases hA : A.subs with
    | nil => simp only [astep, hA]; exact List.Perm.refl _
    | cons p r =>
      by_cases h1 : A.ret = true
      · by_cases h2 : A.min = 0
        · simp [astep, hA, h1, h2, h0 h2, allUndone]
        · by_cases h3 : A.min ≤ p <;> simp [astep, hA, h1, h2, h3, allUndone]
      · simp [astep, hA, h1, allUndone]
  | release =>
    rcases hA : A.subs with _ | ⟨a, _ | ⟨p, r⟩⟩
    · simp only [astep, hA]; exact List.Perm.refl _
    · simp only [astep, hA]; exact List.Perm.refl _
    · cases hg : A.gs <;> simp [astep, hA, hg, allUndone]
  | rollback gap =>
    rcases hA : A.subs with _ | ⟨a, _ | ⟨p, r⟩⟩
    · simp only [astep, hA]; exact List.Perm.refl _
    · simp only [astep, hA]; exact List.Perm.refl _
    · cases hg : A.gs <;> simp [astep, hA, hg, allUndone, undoAll]
  | abort => simp [astep, allUndone, undoAll]

theorem allUndone_cons (o : Op) (os : List Op) : allUndone (o :: os) = allUndone [o] ++ allUndone os := by
  cases o <;> simp [allUndone]

theorem run_perm (ops : List Op) : ∀ (s : St) (A : Abs) (ro : List (List Call)), Inv s A ro →
    (∀ o, o ∈ ops → o ≠ .commit) →
    ∃ A' ro', Inv (ops.foldl step s) A' ro' ∧
      ((ops.foldl step s).calls ++ undoAll (A'.g ++ A'.gs.flatten)).Perm
        (s.calls ++ undoAll (A.g ++ A.gs.flatten) ++ allUndone ops) := by
  induction ops with
  | nil => intro s A ro h _; exact ⟨A, ro, h, by simp [allUndone]⟩
  | cons o os ih =>
    intro s A ro h hc
    obtain ⟨h1, ro', _, h3⟩ := inv_step (x := []) h o
    obtain ⟨A', ro'', h4, h5⟩ := ih (step s o) _ ro' h3 (fun x hx => hc x (by simp [hx]))
    refine ⟨A', ro'', h4, h5.trans ?_⟩
    have h0 : A.min = 0 → A.gs = [] := by
      intro hm
      cases hq : A.gs with
      | nil => rfl
      | cons =>
        obtain ⟨_, _, _, _, _, _, _, _, _, _, h2, _⟩ := h.lv.level_inv hq
        contradiction
    have hp := astep_perm A o (hc o (by simp)) h0
    rw [h1, allUndone_cons, List.append_assoc, List.append_assoc, List.append_assoc]
    refine List.Perm.append_left _ ?_
    rw [← List.append_assoc, ← List.append_assoc]
    exact (hp.append_right _).trans (List.perm_append_comm.append_right _)

/-- Part of C24 in all runs, regular or not: when a transaction aborts, the undo of each of its
changes has been called exactly once, be it by the abort or by an earlier rollback to a
savepoint.  Missing: that the earlier rollbacks undid nothing made before their savepoint. -/
theorem C24_partial_once (n : Nat) (ops : List Op) (h : oneXact ops) :
    (run n (ops ++ [.abort])).calls.Perm (allUndone ops) := by
  have hc : ∀ o, o ∈ ops ++ [Op.abort] → o ≠ .commit := by
    intro o ho
    rcases List.mem_append.mp ho with ho | ho
    · exact (h o ho).1
    · simp at ho; subst ho; simp
  obtain ⟨A, ro, hi, hp⟩ := run_perm (ops ++ [.abort]) (St.init n) _ _ (init_inv n) hc
  have hret : A.ret = false := by
    rw [← hi.ret, List.foldl_append]
    simp only [List.foldl_cons, List.foldl_nil, step, abort]
    split <;> rfl
  obtain ⟨_, c2, c3⟩ := hi.clean hret
  rw [c2, c3] at hp
  have e : ∀ l : List Op, allUndone (l ++ [.abort]) = allUndone l := by
    intro l
    induction l with
    | nil => rfl
    | cons o os ih => rw [List.cons_append, allUndone_cons, allUndone_cons o os, ih]
  simpa [undoAll, run, St.init, e] using hp

/-- Two savepoints, one released and one rolled back, changes with commit-time actions, commit;
then a transaction that is aborted. -/
def sampleOps : List Op :=
  [.change 0 1, .start 3, .onc 0 2, .start 0, .onc 5 3, .change 0 4, .rollback 0, .start 0,
   .change 0 5, .release, .onc 0 6, .release, .rollback 1, .commit,
   .start 0, .change 2 7, .rollback 0, .start 0, .onc 0 8, .start 0, .change 0 9, .release, .abort]

/-- The run is regular, and many callbacks are called. -/
theorem sample_case : regular 0 false none sampleOps ∧
    (run 10 sampleOps).calls =
      [⟨.abort, 4⟩, ⟨.abort, 3⟩, ⟨.preCommit, 6⟩, ⟨.preCommit, 2⟩, ⟨.commit, 6⟩, ⟨.commit, 2⟩,
       ⟨.abort, 7⟩, ⟨.abort, 9⟩, ⟨.abort, 8⟩] := by
  constructor
  · simp [sampleOps, regular]
  · decide

/-- The hypotheses of `C24_partial_change_first` are met. -/
theorem change_first_case : oneXact [.start 0, .change 0 2, .rollback 0, .change 0 3] ∧
    (run 0 (.change 0 1 :: [.start 0, .change 0 2, .rollback 0, .change 0 3] ++ [.abort])).calls =
      [⟨.abort, 2⟩, ⟨.abort, 3⟩, ⟨.abort, 1⟩] := by
  constructor
  · simp [oneXact]
  · decide

/-- `SAVEPOINT a; INSERT 1; SAVEPOINT b; RELEASE b; RELEASE a; SAVEPOINT c; INSERT 2;
ROLLBACK TO c; COMMIT`. -/
def lostOps : List Op :=
  [.start 0, .onc 0 1, .start 0, .release, .release, .start 0, .change 0 2, .rollback 0, .start 0,
   .release, .commit]

/-- An irregular run for `C24_partial_once`. -/
theorem once_case : oneXact (lostOps.take 10) ∧
    (run 0 (lostOps.take 10 ++ [.abort])).calls = [⟨.abort, 2⟩, ⟨.abort, 1⟩] := by
  constructor
  · simp [oneXact, lostOps]
  · decide

/-- What was rolled back to savepoints is found again: three rollbacks, one of them nested. -/
theorem branches_case :
    let ops : List Op := [.change 0 1, .start 0, .change 0 2, .start 0, .change 0 3, .rollback 0,
      .change 0 4, .rollback 0, .start 0, .change 0 5, .rollback 0]
    applyBranches (run 0 ops).mem 50 50 (run 0 ops).branch =
      some [⟨.abort, 5⟩, ⟨.abort, 4⟩, ⟨.abort, 2⟩, ⟨.abort, 3⟩] := by
  decide

/-- C24 fails: rolling back to `c` also undoes change 1, made and released before `c`; its
commit-time action is not done either. -/
theorem C24_violated : ¬ C24 (run 0 lostOps) lostOps ∧
    (run 0 lostOps).calls = [⟨.abort, 2⟩, ⟨.abort, 1⟩] ∧
    want ⟨[], []⟩ lostOps = [⟨.abort, 2⟩, ⟨.preCommit, 1⟩, ⟨.commit, 1⟩] := by
  have h1 : (run 0 lostOps).calls = [⟨.abort, 2⟩, ⟨.abort, 1⟩] := by decide
  have h2 : want ⟨[], []⟩ lostOps = [⟨.abort, 2⟩, ⟨.preCommit, 1⟩, ⟨.commit, 1⟩] := by decide
  refine ⟨?_, h1, h2⟩
  unfold C24
  rw [h1, h2]
  decide

/-- Why: the run is not regular, as the third savepoint is started at depth 0, the first
recorded one was started at depth 1. -/
theorem lostOps_irregular : ¬ regular 0 false none lostOps := by
  simp [lostOps, regular]

end Verif.UndoStack
