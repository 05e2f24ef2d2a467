import Verif.OxidMap.StepDrain

/-!
# The map of statuses: properties C19 and C20
-/

set_option linter.unusedVariables false

namespace Verif.OxidMap

variable {c : Cfg} {s s' : St} {p q : Nat}

theorem inv_init (f : Nat → Csn) : Inv c (init c f) := by
  have hsz := c.hsize
  constructor
  case startNext => exact Nat.le_refl _
  case startGlob => exact Nat.le_refl _
  case globRun => exact Nat.le_refl _
  case startWr => exact Nat.le_refl _
  case wrWip => exact Nat.le_refl _
  case begun => exact fun x hx => absurd rfl hx
  case wipBegun => exact fun x h1 h2 => absurd (Nat.lt_of_le_of_lt h1 h2) (Nat.lt_irrefl _)
  case runOver => exact fun x h1 h2 => absurd (Nat.lt_of_le_of_lt h1 h2) (Nat.lt_irrefl _)
  case owner => exact fun x q b hx => by cases hx
  case uniq => exact fun p q x hx _ => by cases hx
  case ownRange => exact fun p x hx => by cases hx
  case owned => exact fun x h1 h2 => absurd (Nat.lt_of_le_of_lt h1 h2) (Nat.lt_irrefl _)
  case ring => exact fun x _ _ => rfl
  case slots => exact fun x _ _ => Or.inl rfl
  case filed => exact fun x h1 h2 => absurd (Nat.lt_of_le_of_lt h1 h2) (Nat.lt_irrefl _)
  case lockFree => exact fun _ => rfl
  case held => exact fun p hp => by cases hp
  case holder => exact fun p hp => by cases hp
  case pcs => exact fun p x hx => by cases hx
  case resp => exact fun hx => by cases hx
  case globEv => exact fun hx => absurd hx (Nat.lt_irrefl _)
  case lins => exact fun x v hm => absurd hm List.not_mem_nil
  case hist =>
    refine ⟨?_, ?_, ?_⟩
    · intro later p x v earlier e
      cases later <;> cases e
    · intro later p x v earlier e
      cases later <;> cases e
    · intro later x v earlier e
      cases later <;> cases e

theorem inv_go (h : Inv c s) (hc : calm c s (.go p) = true) : Inv c (go c s p) := by
  cases hp : s.pc p with
  | idle =>
    unfold go
    rw [hp]
    exact h
  | beginWait x => exact h.goBegin hp
  | runRead x => exact h.goRun (Or.inl ⟨x, hp⟩)
  | runCas r => exact h.goRun (Or.inr ⟨r, hp⟩)
  | map run x k =>
    have := h.goMap hp
    unfold go
    rw [hp]
    exact this
  | freeze cur g =>
    have := h.goFreeze hp
    unfold go
    rw [hp]
    exact this
  | flPreload pg =>
    have := h.goFlush hp
    unfold go
    rw [hp]
    exact this
  | flCopy pg t b =>
    have := h.goFlush hp
    unfold go
    rw [hp]
    exact this
  | flRefresh pg t b =>
    have := h.goFlush hp
    unfold go
    rw [hp]
    exact this
  | flDisk pg t b =>
    have := h.goFlush hp
    unfold go
    rw [hp]
    exact this
  | scanStart t =>
    have := h.goScanStart hp
    unfold go
    rw [hp]
    exact this
  | scan cur xmax =>
    have := h.goScan hp
    unfold go
    rw [hp]
    exact this
  | drain ws xmax cur buf =>
    have := h.goDrainStep hp
    unfold go
    rw [hp]
    exact this
  | drainWrite ws we xmax buf d =>
    have := h.goDrainWrite hp (by
      intro e x h1 h2 h3
      subst e
      rw [calm, hp] at hc
      have := List.all_eq_true.1 hc x (List.mem_range.2 h2)
      simp only [Bool.or_eq_true, decide_eq_true_eq] at this
      rcases this with ((h4 | h4) | h4) | h4
      · omega
      · exact absurd h3 h4
      · exact Or.inl h4
      · exact Or.inr h4)
    unfold go
    rw [hp]
    exact this
  | drainEnd xmax =>
    have := h.goDrainEnd hp
    unfold go
    rw [hp]
    exact this
  | drainUnlock =>
    have := h.goDrainUnlock hp
    unfold go
    rw [hp]
    exact this
  | setFile x v d =>
    have := h.goSet hp (by
      intro x' v' e q b
      rw [hp] at e
      cases e
      rw [calm, hp] at hc
      have hne : readBack s ≠ some (x / c.page) := by simpa using hc
      refine ⟨?_, ?_, ?_⟩ <;>
      · intro hq
        have hl := h.holder q (by rw [hq]; rfl)
        apply hne
        rw [readBack, hl]
        dsimp only
        rw [hq])
    unfold go
    rw [hp]
    exact this
  | setOld x v =>
    have := h.goSet hp (by intro x' v' e; rw [hp] at e; cases e)
    unfold go
    rw [hp]
    exact this
  | setWip x v o =>
    have := h.goSet hp (by intro x' v' e; rw [hp] at e; cases e)
    unfold go
    rw [hp]
    exact this
  | setCas x v o =>
    have := h.goSet hp (by intro x' v' e; rw [hp] at e; cases e)
    unfold go
    rw [hp]
    exact this
  | setDirty x v =>
    have := h.goSet hp (by intro x' v' e; rw [hp] at e; cases e)
    unfold go
    rw [hp]
    exact this
  | setRecheck x v =>
    have := h.goSet hp (by intro x' v' e; rw [hp] at e; cases e)
    unfold go
    rw [hp]
    exact this
  | setWritten x v d =>
    have := h.goSet hp (by intro x' v' e; rw [hp] at e; cases e)
    unfold go
    rw [hp]
    exact this
  | setLock x v d =>
    have := h.goSet hp (by intro x' v' e; rw [hp] at e; cases e)
    unfold go
    rw [hp]
    exact this

theorem inv_step (h : Inv c s) {a : Act} (hc : calm c s a = true) : Inv c (step c s a) := by
  cases a with
  | begin p =>
    rw [step]
    split
    · rename_i hd
      exact h.begin (pc_idle hd.1) hd.2
    · exact h
  | set p v =>
    rw [step]
    cases ho : s.own p with
    | none => exact h
    | some x =>
      dsimp only
      split
      · rename_i hd
        exact h.set (pc_idle hd.1) ho hd.2
      · exact h
  | get p x =>
    rw [step]
    split
    · rename_i hd
      exact h.get (pc_idle hd.1) hd.2
    · exact h
  | drain p t =>
    rw [step]
    split
    · rename_i hd
      exact h.take (bits' := s.bits) (pc_idle hd.1) hd.2 rfl (fun _ e => e)
    · exact h
  | adv p g t => exact h.adv
  | flush p pg =>
    rw [step]
    split
    · rename_i hd
      split
      · exact h
      · exact h.take (pc_idle hd.1) hd.2 rfl (fun _ e => e)
    · exact h
  | evict pg =>
    refine h.evict ?_
    intro q b hq
    have hl := h.holder q (by rw [hq]; rfl)
    have hne : writingPast s ≠ some pg := by
      rw [calm] at hc
      simpa using hc
    apply hne
    rw [writingPast, hl]
    dsimp only
    rw [hq]
  | garbage x v => exact h.garbage
  | wipe pg => exact h.wipe
  | go p => exact inv_go h hc

theorem inv_run {as : List Act} (h : Inv c s) (hc : calmRun c s as = true) :
    Inv c (runActs c s as) := by
  induction as generalizing s with
  | nil => exact h
  | cons a as ih =>
    rw [calmRun, Bool.and_eq_true] at hc
    exact ih (inv_step h hc.1) hc.2

/-- C19 for the runs in which none of the three cases happens: every look-up gives a status
the transaction had during the look-up (or `frozen`, for one that is over and below
`globalXmin`); every change takes effect during the call that asks for it; nothing else
changes a status.  Missing: the code does not prevent the three cases
(`C19_violated_flush`, `C19_violated_clean`, `C19_violated_past`). -/
theorem C19_partial (f : Nat → Csn) (as : List Act) (hc : calmRun c (init c f) as = true) :
    C19 (runActs c (init c f) as).tr :=
  (inv_run (inv_init f) hc).hist

/-- C20 for the same runs. Missing: the same (`C20_violated`). -/
theorem C20_partial (f : Nat → Csn) (as : List Act) (hc : calmRun c (init c f) as = true) :
    C20 c (runActs c (init c f) as) := by
  have h := inv_run (inv_init f) hc
  have hmost : (runActs c (init c f) as).run ≤ (runActs c (init c f) as).next := by
    have h1 := h.startNext
    rcases Nat.lt_or_ge c.start (runActs c (init c f) as).run with h2 | h2
    · have := (St.finished_begun h (h.runOver ((runActs c (init c f) as).run - 1) (by omega)
        (by omega))).2.1
      omega
    · omega
  have hcaught : (∀ p, (runActs c (init c f) as).pc p = .idle) →
      ¬ Over (runActs c (init c f) as).tr (runActs c (init c f) as).run := by
    intro hidle hover
    obtain ⟨p, hp⟩ := h.resp hover
    rw [hidle p] at hp
    exact hp
  refine ⟨h.runOver, hmost, hcaught, ?_⟩
  intro hidle hown
  rcases Nat.lt_or_ge (runActs c (init c f) as).run (runActs c (init c f) as).next with h1 | h1
  · rcases h.owned _ (Nat.le_trans h.startGlob h.globRun) h1 with h2 | ⟨p, hp⟩
    · exact absurd h2 (hcaught hidle)
    · rw [hown p] at hp
      cases hp
  · omega

/-- `runXmin` does not go back; nothing is assumed. -/
theorem runXmin_monotone (a : Act) : s.run ≤ (step c s a).run := by
  have hmd : ∀ (s : St) p b x v, (mapDone s p b x v).run = s.run := by
    intro s p b x v
    unfold mapDone
    split
    · split <;> rfl
    · rfl
  have hsd : ∀ (s : St) p x v, (setDone s p x v).run = s.run := by
    intro s p x v
    unfold setDone
    dsimp only
    split <;> rfl
  cases a with
  | go p =>
    show s.run ≤ (go c s p).run
    unfold go
    cases hp : s.pc p <;> dsimp only
    case runCas r =>
      split
      · rename_i e
        show s.run ≤ r + 1
        omega
      · exact Nat.le_refl _
    case map run x q =>
      unfold goMap
      cases q <;> dsimp only <;> (try split) <;> first
        | exact Nat.le_refl _
        | exact Nat.le_of_eq (hmd _ _ _ _ _).symm
    case setFile x v d =>
      rw [goSet, hsd]
      cases d <;> exact Nat.le_refl _
    case setRecheck x v =>
      unfold goSet
      dsimp only
      split
      · exact Nat.le_of_eq (hsd _ _ _ _).symm
      · exact Nat.le_refl _
    case freeze cur g =>
      unfold goFreeze
      split <;> exact Nat.le_refl _
    case scan cur xmax =>
      unfold goDrain
      dsimp only
      split
      · exact Nat.le_refl _
      · split <;> exact Nat.le_refl _
    all_goals first
      | exact Nat.le_refl _
      | (split <;> exact Nat.le_refl _)
      | (unfold goSet; dsimp only; split <;> exact Nat.le_refl _)
      | (unfold goDrain; dsimp only; split <;> exact Nat.le_refl _)
      | (unfold goFlush; dsimp only; split <;> exact Nat.le_refl _)
  | begin p => rw [step]; split <;> exact Nat.le_refl _
  | set p v =>
    rw [step]
    cases ho : s.own p with
    | none => exact Nat.le_refl _
    | some x => dsimp only; split <;> exact Nat.le_refl _
  | get p x => rw [step]; split <;> exact Nat.le_refl _
  | drain p t => rw [step]; split <;> exact Nat.le_refl _
  | adv p g t =>
    rw [step]
    split
    · split <;> exact Nat.le_refl _
    · exact Nat.le_refl _
  | flush p pg =>
    rw [step]
    split
    · split <;> exact Nat.le_refl _
    · exact Nat.le_refl _
  | evict pg => rw [step]; split <;> exact Nat.le_refl _
  | garbage x v => rw [step]; split <;> exact Nat.le_refl _
  | wipe pg => rw [step]; split <;> exact Nat.le_refl _

end Verif.OxidMap
