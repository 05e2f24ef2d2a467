/-
How the chain of headers accounts for the changes in the log.
-/
import Verif.RowLocks.Remove

namespace Verif.RowLocks

/-- What a row with tuple `t` and the chain `L` contains. -/
def contentOf (t : Nat) : List Hdr → Option Nat
  | [] => none
  | h :: _ => if h.deleted then none else some t

/-- The chain `L`, with tuple `t` on top and tuples `tups` in the undo records,
accounts for the log: going down, each change of a transaction in progress
matches the next entry of the log; entries of a transaction that is rolling back
may be left without a header; locks do not matter; and the first change of a
committed transaction ends the comparison. -/
inductive Val (st : Nat → Status) (ab : Nat → Bool) (tups : Nat → Nat) :
    Nat → List Hdr → List Act → Prop
  | empty {t : Nat} : Val st ab tups t [] []
  | skip {t : Nat} {L : List Hdr} {a : Act} {A : List Act} : st a.who = .running →
      ab a.who = true → Val st ab tups t L A → Val st ab tups t L (a :: A)
  | lockAct {t : Nat} {L : List Hdr} {a : Act} {A : List Act} : a.val = none →
      Val st ab tups t L A → Val st ab tups t L (a :: A)
  | lockHdr {t : Nat} {h : Hdr} {L : List Hdr} {A : List Act} : h.lockOnly = true →
      Val st ab tups t L A → Val st ab tups t (h :: L) A
  | run {t : Nat} {h : Hdr} {L : List Hdr} {a : Act} {A : List Act} : h.lockOnly = false →
      st h.oxid = .running → a.who = h.oxid →
      a.val = some (if h.deleted then none else some t) →
      Val st ab tups (if h.deleted then t else tups h.loc) L A → Val st ab tups t (h :: L) (a :: A)
  | done {t : Nat} {h : Hdr} {L : List Hdr} {a : Act} {A : List Act} : h.lockOnly = false →
      (∃ c, st h.oxid = .committed c) → a.who = h.oxid →
      a.val = some (if h.deleted then none else some t) → Val st ab tups t (h :: L) (a :: A)

variable {st : Nat → Status} {ab : Nat → Bool} {tups : Nat → Nat}

/-- Removing locks and changing flags does not matter. -/
theorem Val.red {t : Nat} {L : List Hdr} {A : List Act} (H : Val st ab tups t L A) :
    ∀ {L' : List Hdr}, Red (fun h => h.lockOnly = true) L L' → Val st ab tups t L' A := by
  induction H with
  | empty => intro L' R; cases R; exact .empty
  | skip h1 h2 _ ih => intro L' R; exact .skip h1 h2 (ih R)
  | lockAct h1 _ ih => intro L' R; exact .lockAct h1 (ih R)
  | lockHdr h1 _ ih =>
    intro L' R
    cases R with
    | keep b R => exact .lockHdr h1 (ih R)
    | skip g R => exact ih R
  | run h1 h2 h3 h4 _ ih =>
    intro L' R
    cases R with
    | keep b R => exact .run h1 h2 h3 h4 (ih R)
    | skip g R => rw [h1] at g; cases g
  | done h1 h2 h3 h4 =>
    intro L' R
    cases R with
    | keep b R => exact .done h1 h2 h3 h4
    | skip g R => rw [h1] at g; cases g

/-- Only the tuples at the locations of the chain matter. -/
theorem Val.frame {tups' : Nat → Nat} {t : Nat} {L : List Hdr} {A : List Act}
    (H : Val st ab tups t L A) (e : ∀ h ∈ L, tups' h.loc = tups h.loc) :
    Val st ab tups' t L A := by
  induction H with
  | empty => exact .empty
  | skip h1 h2 _ ih => exact .skip h1 h2 (ih e)
  | lockAct h1 _ ih => exact .lockAct h1 (ih e)
  | lockHdr h1 _ ih => exact .lockHdr h1 (ih (fun h hh => e h (List.mem_cons_of_mem _ hh)))
  | run h1 h2 h3 h4 _ ih =>
    refine .run h1 h2 h3 h4 ?_
    rw [e _ List.mem_cons_self]
    exact ih (fun h hh => e h (List.mem_cons_of_mem _ hh))
  | done h1 h2 h3 h4 => exact .done h1 h2 h3 h4

/-- Without a row the tuple does not matter. -/
theorem Val.nil {t t' : Nat} {A : List Act} (H : Val st ab tups t [] A) :
    Val st ab tups t' [] A := by
  generalize e : ([] : List Hdr) = L at H
  induction H with
  | empty => exact .empty
  | skip h1 h2 _ ih => exact .skip h1 h2 (ih e)
  | lockAct h1 _ ih => exact .lockAct h1 (ih e)
  | lockHdr => cases e
  | run => cases e
  | done => cases e

/-- A transaction that commits. -/
theorem Val.commit {x c : Nat} {t : Nat} {L : List Hdr} {A : List Act}
    (H : Val st ab tups t L A) (hx : ab x = false) (hr : st x = .running) :
    Val (upd st x (.committed c)) ab tups t L A := by
  induction H with
  | empty => exact .empty
  | @skip t L a A h1 h2 _ ih =>
    refine .skip ?_ h2 ih
    have : a.who ≠ x := fun e => by rw [e, hx] at h2; cases h2
    simp [upd, this, h1]
  | lockAct h1 _ ih => exact .lockAct h1 ih
  | lockHdr h1 _ ih => exact .lockHdr h1 ih
  | @run t h L a A h1 h2 h3 h4 _ ih =>
    by_cases e : h.oxid = x
    · exact .done h1 ⟨c, by simp [upd, e]⟩ h3 h4
    · exact .run h1 (by simp [upd, e, h2]) h3 h4 ih
  | @done t h L a A h1 h2 h3 h4 =>
    refine .done h1 ?_ h3 h4
    have : h.oxid ≠ x := fun e => by
      obtain ⟨c, h2⟩ := h2
      rw [e, hr] at h2; cases h2
    simpa [upd, this] using h2

/-- A transaction that starts to roll back. -/
theorem Val.leave {x : Nat} {t : Nat} {L : List Hdr} {A : List Act}
    (H : Val st ab tups t L A) : Val st (upd ab x true) tups t L A := by
  induction H with
  | empty => exact .empty
  | @skip t L a A h1 h2 _ ih =>
    refine .skip h1 ?_ ih
    unfold upd; split
    · rfl
    · exact h2
  | lockAct h1 _ ih => exact .lockAct h1 ih
  | lockHdr h1 _ ih => exact .lockHdr h1 ih
  | run h1 h2 h3 h4 _ ih => exact .run h1 h2 h3 h4 ih
  | done h1 h2 h3 h4 => exact .done h1 h2 h3 h4

/-- A transaction that has rolled back all its changes. -/
theorem Val.left {x : Nat} {t : Nat} {L : List Hdr} {A : List Act}
    (H : Val st ab tups t L A) (hx : ∀ h ∈ L, h.oxid ≠ x) :
    Val (upd st x .aborted) ab tups t L (A.filter (fun a => a.who ≠ x)) := by
  induction H with
  | empty => exact .empty
  | @skip t L a A h1 h2 _ ih =>
    by_cases e : a.who = x
    · simpa [List.filter_cons, e] using ih hx
    · have := ih hx
      rw [List.filter_cons, if_pos (by simpa using e)]
      exact .skip (by simp [upd, e, h1]) h2 this
  | @lockAct t L a A h1 _ ih =>
    by_cases e : a.who = x
    · simpa [List.filter_cons, e] using ih hx
    · have := ih hx
      rw [List.filter_cons, if_pos (by simpa using e)]
      exact .lockAct h1 this
  | lockHdr h1 _ ih => exact .lockHdr h1 (ih (fun h hh => hx h (List.mem_cons_of_mem _ hh)))
  | @run t h L a A h1 h2 h3 h4 _ ih =>
    have e : h.oxid ≠ x := hx h List.mem_cons_self
    have := ih (fun h hh => hx h (List.mem_cons_of_mem _ hh))
    rw [List.filter_cons, if_pos (by simpa [h3] using e)]
    exact .run h1 (by simp [upd, e, h2]) h3 h4 this
  | @done t h L a A h1 h2 h3 h4 =>
    have e : h.oxid ≠ x := hx h List.mem_cons_self
    rw [List.filter_cons, if_pos (by simpa [h3] using e)]
    exact .done h1 (by simpa [upd, e] using h2) h3 h4

/-- Undoing a change below locks only. -/
theorem Val.pop {x : Nat} {t : Nat} {Ls : List Hdr} {h : Hdr} {L : List Hdr} {A : List Act}
    (H : Val st ab tups t (Ls ++ h :: L) A) (hls : ∀ k ∈ Ls, k.lockOnly = true)
    (hl : h.lockOnly = false) (ho : h.oxid = x) (hr : st x = .running) (hx : ab x = true) :
    Val st ab tups (if h.deleted then t else tups h.loc) (Ls ++ L) A := by
  generalize e : Ls ++ h :: L = M at H
  induction H generalizing Ls with
  | empty => simp at e
  | skip h1 h2 _ ih => exact .skip h1 h2 (ih hls e)
  | lockAct h1 _ ih => exact .lockAct h1 (ih hls e)
  | lockHdr h1 _ ih =>
    cases Ls with
    | nil =>
      simp at e
      rw [← e.1, hl] at h1; cases h1
    | cons k Ls =>
      simp at e
      rw [← e.1] at h1
      exact .lockHdr h1 (ih (fun j hj => hls j (List.mem_cons_of_mem _ hj)) e.2)
  | run h1 h2 h3 h4 V ih =>
    cases Ls with
    | nil =>
      simp at e
      obtain ⟨e1, e2⟩ := e
      subst e1 e2
      exact .skip (by rw [h3]; exact h2) (by rw [h3, ho]; exact hx) V
    | cons k Ls =>
      simp at e
      have := hls k (by simp)
      rw [e.1, h1] at this; cases this
  | done h1 h2 h3 h4 =>
    cases Ls with
    | nil =>
      simp at e
      obtain ⟨e1, e2⟩ := e
      subst e1
      obtain ⟨c, h2⟩ := h2
      rw [ho, hr] at h2; cases h2
    | cons k Ls =>
      simp at e
      have := hls k (by simp)
      rw [e.1, h1] at this; cases this

/-- What the row contains is the value of the log, if nobody is in the middle of
rolling back a change. -/
theorem Val.value {ipLow : Bool} {r : Recs} {t : Nat} {L : List Hdr} {A : List Act}
    (H : Val st ab tups t L A) (S : Sound st ipLow L) (K : Stored r L)
    (N : ∀ a ∈ A, a.val ≠ none → st a.who = .running → ab a.who = false) :
    contentOf t L = RowLocks.value A := by
  induction H with
  | empty => rfl
  | @skip t L a A h1 h2 _ ih =>
    have hv : a.val = none := by
      cases e : a.val with
      | none => rfl
      | some v =>
        have := N a (by simp) (by simp [e]) h1
        rw [h2] at this; cases this
    rw [ih S K (fun b hb => N b (List.mem_cons_of_mem _ hb))]
    simp [RowLocks.value, hv]
  | lockAct h1 _ ih =>
    rw [ih S K (fun b hb => N b (List.mem_cons_of_mem _ hb))]
    simp [RowLocks.value, h1]
  | @lockHdr t h L A h1 _ ih =>
    have h0 := S.lockLoc h (by simp) h1
    cases L with
    | nil => exact absurd K h0
    | cons g L =>
      have hd := S.del.1 (Or.inl h1)
      have S' : Sound st ipLow (g :: L) := S.red (.skip (Or.inl h1) (.refl _))
      rw [← ih S' K.2.2.2 N]
      simp [contentOf, hd.1, hd.2]
  | run h1 h2 h3 h4 _ _ => simp [contentOf, RowLocks.value, h4]
  | done h1 h2 h3 h4 => simp [contentOf, RowLocks.value, h4]

end Verif.RowLocks
