import Verif.OxidMap.Props

/-!
# The map of statuses: cases

First runs that meet the hypotheses of the theorems; then runs of the code in which statuses
get lost.
-/

set_option linter.unusedVariables false

namespace Verif.OxidMap

/-- A small ring: 8 slots, 4 to a page; the first id is 0. -/
def small : Cfg := { size := 8, page := 4, start := 0, hsize := by decide, hpage := by decide }

/-- Nothing in the files. -/
def start : St := init small (fun _ => .frozen)

/-- `n` steps of a session. -/
def gos (p n : Nat) : List Act := List.replicate n (.go p)

/-- A transaction begins. -/
def begins (p : Nat) : List Act := .begin p :: gos p 3

/-- A transaction ends, id in the ring: six steps, and the advance of `runXmin`. -/
def ends (p : Nat) (v : Csn) (n : Nat) : List Act := .set p v :: gos p n

/-! ## Cases of the hypotheses -/

/-- Nine transactions, so that the ring wraps; some end in the ring, one in the files; ids
are drained to the files, frozen, flushed by the checkpointer, evicted and read back; the
look-ups find three different statuses. -/
def life : List Act :=
  begins 0 ++ begins 1 ++ begins 2 ++ ends 1 (.committed 7) 6 ++
  (.drain 9 3 :: gos 9 12) ++ (.get 8 1 :: gos 8 5) ++
  ends 0 .aborted 30 ++ begins 3 ++ begins 4 ++ begins 5 ++
  (.flush 7 0 :: gos 7 4) ++ [.evict 0] ++ (.get 8 0 :: gos 8 5) ++
  (.get 8 2 :: gos 8 5) ++ ends 2 (.committed 9) 30 ++ ends 3 (.committed 10) 30 ++
  (.adv 6 4 true :: gos 6 4) ++ (.get 8 1 :: gos 8 5) ++
  begins 0 ++ begins 1 ++ begins 2 ++ (.get 8 6 :: gos 8 5)

/-- The answers to look-ups of session 8, newest first. -/
def answers (tr : List Ev) : List (Nat × Csn) :=
  tr.filterMap fun e => match e with | .ret 8 (.get x) v => some (x, v) | _ => none

set_option maxRecDepth 100000 in
/-- The run meets the hypothesis, the look-ups answer, the ring has wrapped. -/
theorem life_case :
    calmRun small start life = true ∧
    answers (runActs small start life).tr =
      [(6, .special 0 false), (1, .frozen), (2, .special 2 false), (0, .aborted),
        (1, .committed 7)] ∧
    (runActs small start life).next = 9 ∧ (runActs small start life).run = 4 ∧
    (runActs small start life).wr = 4 := by
  decide

set_option maxRecDepth 100000 in
/-- A case where everything is over: `runXmin` reaches the next id. -/
theorem over_case :
    calmRun small start (begins 0 ++ begins 1 ++ ends 1 (.committed 3) 6 ++ ends 0 .aborted 30)
      = true ∧
    (runActs small start (begins 0 ++ begins 1 ++ ends 1 (.committed 3) 6 ++ ends 0 .aborted 30)).run
      = 2 := by
  decide

/-! ## Statuses lost -/

theorem During.atStart {p : Nat} {cl : Call} {tr mid : List Ev}
    (h : During p cl (.call p cl :: tr) mid) : mid = .call p cl :: tr := by
  obtain ⟨later, earlier, sofar, h1, h2, h3, h4⟩ := h
  cases later with
  | nil => exact h1.symm
  | cons e l =>
    injection h1 with h5 h6
    exact absurd (by rw [h5]; exact List.mem_cons_self) (h3 cl)

/-- The last thing that happened is a look-up without anything in between, and it gave
something else than the status, which is not explained by `globalXmin`. -/
def stale : List Ev → Bool
  | .ret p (.get x) v :: .call p' (.get x') :: tr =>
    p == p' && x == x' && value tr x != v && (v != .frozen || !(value tr x).finished)
  | _ => false

theorem stale_violates {tr : List Ev} (h : stale tr = true) : ¬ C19 tr := by
  intro hc
  match tr, h with
  | .ret p (.get x) v :: .call p' (.get x') :: tr, h =>
    simp only [stale, Bool.and_eq_true, Bool.or_eq_true, beq_iff_eq, bne_iff_ne,
      Bool.not_eq_true', ne_eq] at h
    obtain ⟨⟨⟨h1, h2⟩, h3⟩, h4⟩ := h
    subst h1
    subst h2
    rcases hc.1 [] p x v (.call p (.get x) :: tr) rfl with ⟨mid, h5, h6⟩ | ⟨h5, h6, _⟩
    · rw [h5.atStart] at h6
      exact h3 h6
    · rcases h4 with h4 | h4
      · exact h4 h5
      · have : (value tr x).finished = true := h6
        rw [h4] at this
        cases this

/-- The checkpointer reads the part of a page that is already in the files, transaction 0
commits in the files, the checkpointer writes the page back. -/
def flushRun : List Act :=
  begins 0 ++ begins 1 ++ begins 2 ++ (.drain 9 2 :: gos 9 10) ++
  (.flush 8 0 :: gos 8 1) ++ ends 0 (.committed 5) 4 ++ gos 8 3 ++ (.get 7 0 :: gos 7 5)

/-- A page was flushed by the checkpointer, so its bit is clear.  Transaction 0, whose id is
already in the files, commits; then another id of the page is drained, and the buffer is
marked clean; the buffer is evicted. -/
def cleanRun : List Act :=
  begins 0 ++ begins 1 ++ begins 2 ++ (.drain 9 1 :: gos 9 8) ++ (.flush 8 0 :: gos 8 4) ++
  ends 0 (.committed 5) 4 ++ (.drain 9 2 :: gos 9 8) ++ [.evict 0] ++ (.get 7 0 :: gos 7 5)

/-- The buffer of a page has been made clean for the checkpointer's copy, which is not yet
on disk, and is loaded from there. -/
def pastRun : List Act :=
  begins 0 ++ begins 1 ++ begins 2 ++ (.drain 9 2 :: gos 9 10) ++ (.flush 8 0 :: gos 8 3) ++
  [.evict 0] ++ gos 8 1 ++ (.get 7 0 :: gos 7 5)

set_option maxRecDepth 100000 in
/-- C19 fails: the commit of transaction 0 is overwritten by the checkpointer. -/
theorem C19_violated_flush : ¬ C19 (runActs small start flushRun).tr :=
  stale_violates (by decide)

set_option maxRecDepth 100000 in
/-- C19 fails: the commit of transaction 0 is dropped with a buffer marked clean. -/
theorem C19_violated_clean : ¬ C19 (runActs small start cleanRun).tr :=
  stale_violates (by decide)

set_option maxRecDepth 100000 in
/-- C19 fails: the status of transaction 0 is read from a page that was not yet written. -/
theorem C19_violated_past : ¬ C19 (runActs small start pastRun).tr :=
  stale_violates (by decide)

/-- The session that moves. -/
def Act.who : Act → Option Nat
  | .begin p => some p
  | .set p _ => some p
  | .get p _ => some p
  | .drain p _ => some p
  | .adv p _ _ => some p
  | .flush p _ => some p
  | .go p => some p
  | _ => none

theorem step_other {c : Cfg} {s : St} {a : Act} {q : Nat} (h : a.who ≠ some q) :
    (step c s a).pc q = s.pc q := by
  have hu : ∀ (f : Nat → Pc) p x, p ≠ q → upd f p x q = f q := fun f p x e => upd_other (Ne.symm e)
  have hmd : ∀ (s : St) p b x v, p ≠ q → (mapDone s p b x v).pc q = s.pc q := by
    intro s p b x v e
    unfold mapDone
    split
    · split <;> exact hu _ _ _ e
    · exact hu _ _ _ e
  have hsd : ∀ (s : St) p x v, p ≠ q → (setDone s p x v).pc q = s.pc q := by
    intro s p x v e
    unfold setDone
    dsimp only
    split <;> exact hu _ _ _ e
  cases a with
  | go p =>
    have e : p ≠ q := fun e => h (by rw [e]; rfl)
    show (go c s p).pc q = s.pc q
    unfold go
    cases hp : s.pc p <;> dsimp only
    case map run x k =>
      unfold goMap
      cases k <;> dsimp only <;> (try split) <;> first
        | exact hu _ _ _ e
        | exact hmd _ _ _ _ _ e
        | rfl
    case setFile x v d =>
      rw [goSet, hsd _ _ _ _ e]
      cases d <;> rfl
    case setRecheck x v =>
      unfold goSet
      dsimp only
      split
      · exact hsd _ _ _ _ e
      · exact hu _ _ _ e
    case freeze cur g =>
      unfold goFreeze
      split <;> exact hu _ _ _ e
    case scan cur xmax =>
      unfold goDrain
      dsimp only
      split
      · exact hu _ _ _ e
      · split <;> exact hu _ _ _ e
    all_goals first
      | rfl
      | exact hu _ _ _ e
      | (split <;> first | rfl | exact hu _ _ _ e)
      | (unfold goSet; dsimp only; split <;> first | rfl | exact hu _ _ _ e)
      | (unfold goDrain; dsimp only; split <;> first | rfl | exact hu _ _ _ e)
      | (unfold goFlush; dsimp only; split <;> first | rfl | exact hu _ _ _ e)
  | begin p =>
    have e : p ≠ q := fun e => h (by rw [e]; rfl)
    rw [step]
    split
    · exact hu _ _ _ e
    · rfl
  | set p v =>
    have e : p ≠ q := fun e => h (by rw [e]; rfl)
    rw [step]
    cases ho : s.own p with
    | none => rfl
    | some x =>
      dsimp only
      split
      · exact hu _ _ _ e
      · rfl
  | get p x =>
    have e : p ≠ q := fun e => h (by rw [e]; rfl)
    rw [step]
    split
    · exact hu _ _ _ e
    · rfl
  | drain p t =>
    have e : p ≠ q := fun e => h (by rw [e]; rfl)
    rw [step]
    split
    · exact hu _ _ _ e
    · rfl
  | adv p g t =>
    have e : p ≠ q := fun e => h (by rw [e]; rfl)
    rw [step]
    split
    · split
      · exact hu _ _ _ e
      · rfl
    · rfl
  | flush p pg =>
    have e : p ≠ q := fun e => h (by rw [e]; rfl)
    rw [step]
    split
    · split
      · rfl
      · exact hu _ _ _ e
    · rfl
  | evict pg => rw [step]; split <;> rfl
  | garbage x v => rw [step]; split <;> rfl
  | wipe pg => rw [step]; split <;> rfl

theorem run_other {c : Cfg} {as : List Act} {s : St} {q : Nat}
    (h : ∀ a ∈ as, a.who ≠ some q) : (runActs c s as).pc q = s.pc q := by
  induction as generalizing s with
  | nil => rfl
  | cons a as ih =>
    exact (ih (fun b hb => h b (List.mem_cons_of_mem _ hb))).trans
      (step_other (h a List.mem_cons_self))

/-- The commit of transaction 1 is overwritten by the checkpointer; then the transactions 0
and 2 commit. -/
def stuckRun : List Act :=
  begins 0 ++ begins 1 ++ begins 2 ++ (.drain 9 3 :: gos 9 12) ++ (.flush 8 0 :: gos 8 1) ++
  ends 1 (.committed 5) 5 ++ gos 8 3 ++ ends 0 (.committed 6) 40 ++ ends 2 (.committed 7) 40

/-- All sessions of the run are below 10. -/
theorem idle_all {as : List Act} (h : as.all (fun a => match a.who with
      | some p => decide (p < 10)
      | none => true) = true)
    (hi : (List.range 10).all (fun p => ((runActs small start as).pc p).isIdle) = true) :
    ∀ p, (runActs small start as).pc p = .idle := by
  intro p
  rcases Nat.lt_or_ge p 10 with h1 | h1
  · exact pc_idle (List.all_eq_true.1 hi p (List.mem_range.2 h1))
  · refine run_other ?_
    intro a ha e
    have := List.all_eq_true.1 h a ha
    rw [e] at this
    have : p < 10 := by simpa using this
    omega

set_option maxRecDepth 100000 in
/-- C20 fails: no call is in progress, all transactions are over, and `runXmin` does not
pass transaction 1. -/
theorem C20_violated : ¬ C20 small (runActs small start stuckRun) := by
  intro h
  refine h.caughtUp (idle_all (by decide) (by decide +kernel)) ?_
  show (value (runActs small start stuckRun).tr (runActs small start stuckRun).run).finished = true
  decide

end Verif.OxidMap
