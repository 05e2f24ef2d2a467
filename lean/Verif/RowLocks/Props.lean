/-
Row locks and rollback of row changes: the theorems about C30 and C31.
-/
import Verif.RowLocks.Undo

namespace Verif.RowLocks

/-- One step of a regular run. -/
theorem Inv.step {s : St} {g : Log} {L : List Hdr} {t : Nat} (I : Inv s g L t) (op : Op)
    (hreg : s.regular op = true) :
    g.accepts (s.step op).2.toList ∧
      ∃ L' t', Inv (s.step op).1 (g.after (s.step op).2.toList) L' t' := by
  cases op with
  | ask x mode csn w =>
    unfold St.step
    dsimp only
    split
    · next h =>
      obtain ⟨h1, h2⟩ := I.request h.1 h.2.2 hreg
      exact ⟨⟨h1, trivial⟩, h2⟩
    · exact ⟨trivial, L, t, I⟩
  | commit x csn =>
    unfold St.step
    dsimp only
    split
    · next h => exact ⟨⟨trivial, trivial⟩, L, t, I.commit h.1 h.2⟩
    · exact ⟨trivial, L, t, I⟩
  | startAbort x =>
    unfold St.step
    dsimp only
    split
    · exact ⟨⟨trivial, trivial⟩, L, t, I.startAbort⟩
    · exact ⟨trivial, L, t, I⟩
  | undo x =>
    unfold St.step
    dsimp only
    split
    · next h => exact ⟨trivial, I.undoTop h.1 h.2⟩
    · exact ⟨trivial, L, t, I⟩
  | endAbort x =>
    unfold St.step
    dsimp only
    split
    · next h => exact ⟨⟨trivial, trivial⟩, L, t, I.endAbort h.1 h.2.2⟩
    · exact ⟨trivial, L, t, I⟩
  | other n => exact ⟨trivial, L, t, I.other⟩

theorem Log.accepts_append : ∀ {es es' : List Ev} {g : Log},
    g.accepts (es ++ es') ↔ g.accepts es ∧ (g.after es).accepts es'
  | [], es', g => by simp [Log.accepts, Log.after]
  | e :: es, es', g => by
    simp only [List.cons_append, Log.accepts, Log.after]
    rw [Log.accepts_append, and_assoc]

theorem Log.after_append : ∀ {es es' : List Ev} {g : Log},
    g.after (es ++ es') = (g.after es).after es'
  | [], _, _ => rfl
  | e :: es, es', g => by
    simp only [List.cons_append, Log.after]
    exact Log.after_append

/-- The invariant holds throughout a regular run. -/
theorem Inv.run : ∀ {ops : List Op} {s : St} {g : Log} {L : List Hdr} {t : Nat},
    Inv s g L t → s.regularRun ops = true →
    g.accepts (s.trace ops) ∧ ∃ L' t', Inv (s.run ops) (g.after (s.trace ops)) L' t'
  | [], _, _, L, t, I, _ => ⟨trivial, L, t, I⟩
  | op :: ops, s, g, L, t, I, h => by
    simp only [St.regularRun, Bool.and_eq_true] at h
    obtain ⟨h1, L1, t1, I1⟩ := I.step op h.1
    obtain ⟨h2, h3⟩ := Inv.run I1 h.2
    simp only [St.trace, St.run]
    rw [Log.accepts_append, Log.after_append]
    exact ⟨⟨h1, h2⟩, h3⟩

theorem Inv.contains {s : St} {g : Log} {L : List Hdr} {t : Nat} (I : Inv s g L t) :
    g.contains s.content := by
  intro H
  have e := I.val.value I.core.sound I.core.stored (by
    intro a ha hv hr
    rw [← I.leaving]
    exact H a ha hv ((I.ended a.who).2 hr))
  rw [← e]
  unfold St.content contentOf
  rcases I.row with ⟨e1, e2⟩ | ⟨h, L', e1, e2⟩
  · rw [e1, e2]
  · rw [e1, e2]

/-- **C30** in regular runs, whether or not the number of a transaction in
progress compares below the others: every request is granted, or refused in
favour of `y`, as the table of conflicting modes says.  Missing: runs that are
not regular, for which it is false (see below). -/
theorem C30_partial (b : Bool) (ops : List Op) (h : (St.init b).regularRun ops = true) :
    Log.init.accepts ((St.init b).trace ops) :=
  ((Inv.init b 0).run h).1

/-- **C31** in regular runs: whatever subset of the transactions was rolled
back, the row contains what the newest change that was not rolled back left in
it.  (That the locks of the others are still effective is `C30_partial`, which
speaks of the answers after rollbacks too.)  Missing: runs that are not regular,
for which it is false (see below). -/
theorem C31_partial (b : Bool) (ops : List Op) (h : (St.init b).regularRun ops = true) :
    (Log.init.after ((St.init b).trace ops)).contains ((St.init b).run ops).content := by
  obtain ⟨_, _, _, I⟩ := (Inv.init b 0).run h
  exact I.contains

/-- A regular run with shared locks, an update below a lock, a rollback of the
update, waiting requests and a stale lock. -/
def sampleRun : List Op :=
  [.ask 1 3 10 (.insert 7), .ask 2 0 10 .lock, .commit 1 20, .other 3, .ask 2 0 30 .lock,
   .ask 3 2 30 (.update 8), .ask 4 0 30 .lock, .ask 5 1 30 .lock, .ask 6 3 30 .delete,
   .startAbort 3, .undo 3, .endAbort 3, .ask 5 1 40 .lock, .ask 6 2 40 (.update 9), .commit 5 50,
   .ask 6 2 60 (.update 9), .ask 4 2 60 .lock, .commit 6 70, .ask 4 2 80 (.update 10)]

set_option maxRecDepth 100000 in
/-- The run is regular, and the answers are as they should be. -/
example : (St.init true).regularRun sampleRun = true ∧
    (St.init false).regularRun sampleRun = true ∧
    (St.init true).trace sampleRun = (St.init false).trace sampleRun ∧
    (St.init true).trace sampleRun =
      [.answered 1 3 (.insert 7) .done, .answered 2 0 .lock (.refused 1), .committed 1,
       .answered 2 0 .lock .done, .answered 3 2 (.update 8) .done, .answered 4 0 .lock .done,
       .answered 5 1 .lock (.refused 3), .answered 6 3 .delete (.refused 4), .leaving 3, .left 3,
       .answered 5 1 .lock .done, .answered 6 2 (.update 9) (.refused 5), .committed 5,
       .answered 6 2 (.update 9) .done, .answered 4 2 .lock (.refused 6), .committed 6,
       .answered 4 2 (.update 10) .done] ∧
    ((St.init true).run sampleRun).content = some 10 := by decide +kernel

set_option maxRecDepth 100000 in
/-- A regular run where a transaction changes, deletes and inserts the row again
and rolls back: the row is there again, with the lock of another. -/
example :
    let ops : List Op :=
      [.ask 1 3 10 (.insert 7), .commit 1 20, .ask 2 2 30 (.update 8), .ask 2 3 30 (.update 9),
       .ask 2 3 30 .delete, .ask 2 3 30 (.insert 10), .startAbort 2, .undo 2, .undo 2,
       .ask 3 0 30 .lock, .undo 2, .undo 2, .endAbort 2, .ask 3 0 30 .lock, .ask 4 3 30 .delete]
    (St.init true).regularRun ops = true ∧ ((St.init true).run ops).content = some 7 ∧
      (Log.init.after ((St.init true).trace ops)).acts = [⟨3, 0, none⟩, ⟨1, 3, some (some 7)⟩] := by
  decide +kernel

/-- A run that is not regular, because two locks of ended transactions come to
lie next to each other: only one of them is removed from the chain, the mark
that locks follow is cleared above the other, and a later walk takes it away
above a lock of a transaction in progress. -/
def lostLock : List Op :=
  [.ask 1 3 10 (.insert 7), .commit 1 20, .ask 2 0 30 .lock, .ask 3 0 30 .lock,
   .ask 4 2 30 (.update 8), .ask 5 0 30 .lock, .commit 2 40, .commit 3 41, .ask 5 0 30 .lock,
   .commit 4 50, .ask 6 2 60 (.update 9), .ask 7 0 45 .lock, .commit 6 70, .commit 7 75]

/-- The run is not a regular one. -/
example : (St.init true).regularRun lostLock = false := by decide +kernel

set_option maxRecDepth 100000 in
/-- **C30 is violated**: in that run transaction 5 holds `FOR KEY SHARE` and is
in progress, and the row can be deleted by transaction 8. -/
theorem C30_violated_lost_lock (b : Bool) :
    ¬ Log.init.accepts ((St.init b).trace (lostLock ++ [.ask 8 3 80 .delete])) := by
  have e : (St.init b).trace (lostLock ++ [.ask 8 3 80 .delete]) =
      [.answered 1 3 (.insert 7) .done, .committed 1, .answered 2 0 .lock .done,
       .answered 3 0 .lock .done, .answered 4 2 (.update 8) .done, .answered 5 0 .lock .done,
       .committed 2, .committed 3, .answered 5 0 .lock .done, .committed 4,
       .answered 6 2 (.update 9) .done, .answered 7 0 .lock .done, .committed 6, .committed 7] ++
      [.answered 8 3 .delete .done] := by
    cases b <;> decide +kernel
  rw [e, Log.accepts_append]
  intro h
  have h2 := h.2.1 5 (by decide) (by decide) (by decide)
  exact h2 ⟨⟨5, 0, none⟩, by decide, rfl, rfl⟩

set_option maxRecDepth 100000 in
/-- **C30 is violated** if the number of a transaction in progress compares below
the others: `FOR KEY SHARE` is granted above a change of the key that is in
progress, when a change that keeps the key followed it. -/
theorem C30_violated_key :
    ¬ Log.init.accepts ((St.init true).trace
      [.ask 1 3 10 (.insert 7), .commit 1 20, .ask 2 3 30 (.update 8), .ask 2 2 30 (.update 9),
       .ask 3 0 30 .lock]) := by
  have e : (St.init true).trace
      [.ask 1 3 10 (.insert 7), .commit 1 20, .ask 2 3 30 (.update 8), .ask 2 2 30 (.update 9),
       .ask 3 0 30 .lock] =
      [.answered 1 3 (.insert 7) .done, .committed 1, .answered 2 3 (.update 8) .done,
       .answered 2 2 (.update 9) .done] ++ [.answered 3 0 .lock .done] := by decide +kernel
  rw [e, Log.accepts_append]
  intro h
  exact h.2.1 2 (by decide) (by decide) (by decide)
    ⟨⟨2, 3, some (some 8)⟩, by decide, rfl, trivial⟩

/-- A transaction deletes the row, inserts it again and updates it; another then
gets `FOR KEY SHARE`, as in `C30_violated_key`; the first rolls back. -/
def lostRow : List Op :=
  [.ask 1 3 10 (.insert 7), .commit 1 20, .ask 2 3 30 .delete, .ask 2 3 30 (.insert 8),
   .ask 2 2 30 (.update 9), .ask 3 0 30 .lock, .startAbort 2, .undo 2, .undo 2, .undo 2, .endAbort 2]

set_option maxRecDepth 100000 in
/-- **C31 is violated** if the number of a transaction in progress compares below
the others: after the rollback the row is deleted, though the only change that
was not rolled back is its insertion. -/
theorem C31_violated :
    ¬ (Log.init.after ((St.init true).trace lostRow)).contains ((St.init true).run lostRow).content := by
  intro h
  have e1 : ((St.init true).run lostRow).content = none := by decide +kernel
  have e2 : (Log.init.after ((St.init true).trace lostRow)).acts =
    [⟨3, 0, none⟩, ⟨1, 3, some (some 7)⟩] := by decide +kernel
  have e3 : (Log.init.after ((St.init true).trace lostRow)).ended 1 = true := by decide +kernel
  have := h (by
    intro a ha hv he
    rw [e2] at ha
    simp at ha
    rcases ha with q | q <;> subst q
    · exact absurd rfl hv
    · rw [e3] at he; cases he)
  rw [e1, e2] at this
  exact absurd this (by decide)

end Verif.RowLocks
