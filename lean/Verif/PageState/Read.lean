import Verif.PageState.QueueInv

/-!
# Unlocked reads

The invariant behind C15, and the construction of a history in which the change
count goes through all its values.
-/

namespace Verif.PageState

/-- What is known about an unfinished copy: while the page has not been changed
since the copy began, every word copied is the word on the page. -/
def RdInv (s : St) : Prop :=
  ∀ p b s1 v0 img, s.pc p = .rd b s1 v0 img →
    v0 ≤ s.ver b ∧ s1.cc = v0 % 4294967296 ∧
    (s.ver b = v0 → (s.word b).noRead = false → ∀ j v, img j = some v → v = s.mem b j)

theorem init_rdInv : RdInv init := by intro p b s1 v0 img h; cases h

theorem RdInv.frame {s t : St} (h : RdInv s)
    (hp : ∀ q b s1 v0 img, t.pc q = .rd b s1 v0 img → s.pc q = .rd b s1 v0 img)
    (hv : ∀ b, s.ver b ≤ t.ver b)
    (hw : ∀ b, t.ver b = s.ver b → (t.word b).noRead = false → (s.word b).noRead = false ∧
      t.mem b = s.mem b) : RdInv t := by
  intro q b s1 v0 img hq
  obtain ⟨h1, h2, h3⟩ := h q b s1 v0 img (hp q b s1 v0 img hq)
  refine ⟨Nat.le_trans h1 (hv b), h2, ?_⟩
  intro e1 e2 j v hj
  have hvb := hv b
  have he : t.ver b = s.ver b := by omega
  obtain ⟨e3, e4⟩ := hw b he e2
  rw [e4]
  exact h3 (by omega) e3 j v hj

theorem RdInv.goto {s : St} (h : RdInv s) (p : Nat) (c : Pc)
    (hc : ∀ b s1 v0 img, c ≠ .rd b s1 v0 img) : RdInv (s.goto p c) := by
  refine h.frame ?_ (fun _ => Nat.le_refl _) (fun _ _ hn => ⟨hn, rfl⟩)
  intro q b s1 v0 img hq
  by_cases hqp : q = p
  · subst hqp
    have : (s.goto q c).pc q = c := upd_same _ _ _
    rw [this] at hq; exact absurd hq (hc _ _ _ _)
  · have : (s.goto p c).pc q = s.pc q := upd_ne _ _ hqp
    rw [this] at hq; exact hq

/-- Steps that keep contents, flags and versions, and start no copy. -/
theorem RdInv.same {s t : St} (h : RdInv s) (p : Nat) (hp : ∀ q, q ≠ p → t.pc q = s.pc q)
    (hpp : ∀ b s1 v0 img, t.pc p ≠ .rd b s1 v0 img) (hv : t.ver = s.ver) (hm : t.mem = s.mem)
    (hw : ∀ b, (t.word b).noRead = (s.word b).noRead) : RdInv t := by
  refine h.frame ?_ (fun b => by rw [hv]; exact Nat.le_refl _)
    (fun b _ hn => ⟨by rw [← hw b]; exact hn, by rw [hm]⟩)
  intro q b s1 v0 img hq
  by_cases hqp : q = p
  · subst hqp; exact absurd hq (hpp _ _ _ _)
  · rw [hp q hqp] at hq; exact hq

theorem rdInv_go {s : St} (h : RdInv s) (hl : LockInv s) (ht : ∀ q, (s.pc q).tested) (p ch : Nat) :
    RdInv (stepGo s p ch) := by
  have hk : ∀ (w : Word) (b c : Nat) (u : Nat) (t : Option Nat) (lk : Bool), s.word b = w →
      (upd s.word b { w with tail := t, usage := u, locked := lk } c).noRead = (s.word c).noRead := by
    intro w b c u t lk hw
    by_cases hc : c = b
    · subst hc; rw [upd_same, hw]
    · rw [upd_ne _ _ hc]
  cases hpc : s.pc p with
  | idle => have : stepGo s p ch = s := by unfold stepGo; rw [hpc]
            rw [this]; exact h
  | crash => have : stepGo s p ch = s := by unfold stepGo; rw [hpc]
             rw [this]; exact h
  | start b k =>
    have hs : stepGo s p ch = s.goto p (.loop b k (s.word b)) := by unfold stepGo; rw [hpc]
    rw [hs]; exact h.goto p _ (by intro _ _ _ _; simp)
  | loop b k w =>
    have hs : stepGo s p ch = stepLoop s p b k w ch := by unfold stepGo; rw [hpc]
    rw [hs]
    refine h.same p ?_ ?_ ?_ ?_ ?_
    · intro q hq
      unfold stepLoop; repeat' split
      all_goals simp [St.goto, St.repost, upd_ne _ _ hq]
    · intro b' s1 v0 img
      unfold stepLoop; repeat' split
      all_goals simp [St.goto, St.repost, upd_same, hpc]
    all_goals
      unfold stepLoop; repeat' split
      all_goals simp [St.goto, St.repost]
  | casLock b k w =>
    have hs : stepGo s p ch = stepCasLock s p b k w ch := by unfold stepGo; rw [hpc]
    rw [hs]
    unfold stepCasLock
    split
    · rename_i hw
      cases k
      all_goals
        refine h.same p (fun q hq => upd_ne _ _ hq) ?_ rfl rfl ?_
        · intro b' s1 v0 img; simp [St.repost, upd_same]
        · intro c; exact hk w b c ch w.tail true hw
    · exact h.goto p _ (by intro _ _ _ _; simp)
  | casQueue b k w =>
    have hs : stepGo s p ch = stepCasQueue s p b k w ch := by unfold stepGo; rw [hpc]
    rw [hs]
    unfold stepCasQueue
    split
    · rename_i hw
      refine h.same p (fun q hq => upd_ne _ _ hq) ?_ rfl rfl ?_
      · intro b' s1 v0 img; simp [upd_same]
      · intro c; exact hk w b c ch (some p) w.locked hw
    · exact h.goto p _ (by intro _ _ _ _; simp)
  | sleep b k =>
    have hs : stepGo s p ch = stepSleep s p b k := by unfold stepGo; rw [hpc]
    rw [hs]
    refine h.same p ?_ ?_ ?_ ?_ ?_
    · intro q hq
      unfold stepSleep; repeat' split
      all_goals simp [St.goto, St.repost, upd_ne _ _ hq]
    · intro b' s1 v0 img
      unfold stepSleep; repeat' split
      all_goals simp [St.goto, St.repost, upd_same, hpc]
    all_goals
      unfold stepSleep; repeat' split
      all_goals simp [St.goto, St.repost]
  | uread b sp =>
    have hs : stepGo s p ch = s.goto p (.walk (unlStart b sp (s.word b) none none none false)) := by
      unfold stepGo; rw [hpc]
    rw [hs]; exact h.goto p _ (by intro _ _ _ _; simp)
  | walk u =>
    have hs : stepGo s p ch = stepWalk s p u := by unfold stepGo; rw [hpc]
    rw [hs]
    refine h.same p ?_ ?_ ?_ ?_ ?_
    · intro q hq
      unfold stepWalk walkNode; repeat' split
      all_goals simp [St.goto, upd_ne _ _ hq]
    · intro b' s1 v0 img
      unfold stepWalk walkNode; repeat' split
      all_goals simp [St.goto, upd_same]
    all_goals
      unfold stepWalk walkNode; repeat' split
      all_goals simp [St.goto]
  | ucas u =>
    have hs : stepGo s p ch = stepUcas s p u := by unfold stepGo; rw [hpc]
    rw [hs]
    unfold stepUcas
    split
    · rename_i hw
      refine h.frame ?_ ?_ ?_
      · intro q b s1 v0 img hq
        dsimp only at hq
        by_cases hqp : q = p
        · subst hqp; rw [upd_same] at hq; cases hq
        · rw [upd_ne _ _ hqp] at hq; exact hq
      · intro c
        dsimp only
        by_cases hc : c = u.b
        · subst hc; rw [upd_same]; split <;> omega
        · rw [upd_ne _ _ hc]; exact Nat.le_refl _
      · intro c hv hn
        dsimp only at hv hn
        refine ⟨?_, rfl⟩
        by_cases hc : c = u.b
        · subst hc
          rw [upd_same] at hv
          cases hnr : u.s.noRead with
          | false => rw [hw]; exact hnr
          | true => rw [if_pos hnr] at hv; omega
        · rw [upd_ne _ _ hc] at hn; exact hn
    · exact h.goto p _ (by intro _ _ _ _; simp)
  | wake b hd =>
    cases hd with
    | none =>
      have hs : stepGo s p ch = s.goto p .idle := by unfold stepGo; rw [hpc]
      rw [hs]; exact h.goto p _ (by intro _ _ _ _; simp)
    | some q =>
      have hs : stepGo s p ch = { s with
          status := upd s.status q .wakeUp, pc := upd s.pc p (.post b q (s.next q)) } := by
        unfold stepGo; rw [hpc]
      rw [hs]
      exact h.same p (fun q hq => upd_ne _ _ hq)
        (by intro _ _ _ _; simp [upd_same]) rfl rfl (fun _ => rfl)
  | post b q nx =>
    have hs : stepGo s p ch = { s with
      sem := upd s.sem q (s.sem q + 1), recv := upd s.recv q (s.recv q + 1),
      pc := upd s.pc p (.wake b nx) } := by
      unfold stepGo; rw [hpc]
    rw [hs]
    exact h.same p (fun q hq => upd_ne _ _ hq)
      (by intro _ _ _ _; simp [upd_same]) rfl rfl (fun _ => rfl)
  | rd b s1 v0 img =>
    have hs : stepGo s p ch = s.goto p (.rd b s1 v0 (upd img ch (some (s.mem b ch)))) := by
      unfold stepGo; rw [hpc]
    rw [hs]
    intro q b' s1' v0' img' hq
    by_cases hqp : q = p
    · subst hqp
      have : (s.goto q (.rd b s1 v0 (upd img ch (some (s.mem b ch))))).pc q = _ := upd_same _ _ _
      rw [this] at hq
      cases hq
      obtain ⟨h1, h2, h3⟩ := h q b s1 v0 img hpc
      refine ⟨h1, h2, ?_⟩
      intro e1 e2 j v hj
      by_cases hjc : j = ch
      · subst hjc; rw [upd_same] at hj; cases hj; rfl
      · rw [upd_ne _ _ hjc] at hj; exact h3 e1 e2 j v hj
    · have : (s.goto p (.rd b s1 v0 (upd img ch (some (s.mem b ch))))).pc q = s.pc q :=
        upd_ne _ _ hqp
      rw [this] at hq
      exact h q b' s1' v0' img' hq

theorem rdInv_step {s : St} (h : RdInv s) (hl : LockInv s) (ht : ∀ q, (s.pc q).tested) (a : Act) :
    RdInv (step s a) := by
  cases a with
  | go p ch => exact rdInv_go h hl ht p ch
  | call p b k =>
    rw [step]; split
    · exact h.same p (fun q hq => upd_ne _ _ hq)
        (by intro _ _ _ _; simp [upd_same]) rfl rfl (fun _ => rfl)
    · exact h
  | waitChange p b cc =>
    rw [step]; split
    · exact h.same p (fun q hq => upd_ne _ _ hq)
        (by intro _ _ _ _; simp [upd_same]) rfl rfl (fun _ => rfl)
    · exact h
  | tryLock p b ch =>
    rw [step]; split
    · refine h.frame (fun _ _ _ _ _ hq => hq) (fun _ => Nat.le_refl _) ?_
      intro c _ hn
      refine ⟨?_, rfl⟩
      dsimp only at hn
      by_cases hc : c = b
      · subst hc; rw [upd_same] at hn; exact hn
      · rw [upd_ne _ _ hc] at hn; exact hn
    · exact h
  | unlock p b split =>
    rw [step]; split
    · exact h.goto p _ (by intro _ _ _ _; simp)
    · exact h
  | block p b =>
    rw [step]; split
    · unfold stepBlock
      split
      · exact h
      · split
        · exact h
        · refine h.frame (fun _ _ _ _ _ hq => hq) (fun _ => Nat.le_refl _) ?_
          intro c _ hn
          refine ⟨?_, rfl⟩
          dsimp only at hn
          by_cases hc : c = b
          · subst hc; rw [upd_same] at hn; cases hn
          · rw [upd_ne _ _ hc] at hn; exact hn
    · exact h
  | write p b i v =>
    rw [step]; split
    · rename_i hc
      simp only [Bool.and_eq_true] at hc
      refine h.frame (fun _ _ _ _ _ hq => hq) (fun _ => Nat.le_refl _) ?_
      intro c _ hn
      refine ⟨hn, ?_⟩
      have : c ≠ b := by
        intro hcb; subst hcb
        have hn : (s.word c).noRead = false := hn
        rw [hc.2] at hn; cases hn
      exact upd_ne _ _ this
    · exact h
  | mark p b fuel sel =>
    rw [step]; split
    · exact h.frame (fun _ _ _ _ _ hq => hq) (fun _ => Nat.le_refl _) (fun _ _ hn => ⟨hn, rfl⟩)
    · exact h
  | read p b =>
    rw [step]; split
    · intro q b' s1 v0 img hq
      by_cases hqp : q = p
      · subst hqp
        have : (s.goto q (.rd b (s.word b) (s.ver b) (fun _ => none))).pc q = _ := upd_same _ _ _
        rw [this] at hq
        cases hq
        exact ⟨Nat.le_refl _, hl.ver b, fun _ _ j v hj => by cases hj⟩
      · have : (s.goto p (.rd b (s.word b) (s.ver b) (fun _ => none))).pc q = s.pc q :=
          upd_ne _ _ hqp
        rw [this] at hq
        exact h q b' s1 v0 img hq
    · exact h
  | accept p =>
    rw [step]; split
    · split
      · exact h
      · exact h.goto p _ (by intro _ _ _ _; simp)
    · exact h
  | drop p =>
    rw [step]; split
    · exact h.goto p _ (by intro _ _ _ _; simp)
    · exact h
  | touch b u =>
    rw [step]
    refine h.frame (fun _ _ _ _ _ hq => hq) (fun _ => Nat.le_refl _) ?_
    intro c _ hn
    refine ⟨?_, rfl⟩
    dsimp only at hn
    by_cases hc : c = b
    · subst hc; rw [upd_same] at hn; exact hn
    · rw [upd_ne _ _ hc] at hn; exact hn
  | signal p =>
    rw [step]
    exact h.frame (fun _ _ _ _ _ hq => hq) (fun _ => Nat.le_refl _) (fun _ _ hn => ⟨hn, rfl⟩)
  | take p =>
    rw [step]; split
    · exact h.frame (fun _ _ _ _ _ hq => hq) (fun _ => Nat.le_refl _) (fun _ _ hn => ⟨hn, rfl⟩)
    · exact h

theorem run_rdInv (as : List Act) : ∀ s : St, RdInv s → LockInv s → (∀ q, (s.pc q).tested) →
    RdInv (run s as) := by
  induction as with
  | nil => intro s h _ _; exact h
  | cons a as ih =>
    intro s h hl ht
    exact ih _ (rdInv_step h hl ht a) (lockInv_step hl ht a) (tested_step ht a)

theorem reach_rdInv (as : List Act) : RdInv (run init as) :=
  run_rdInv as _ init_rdInv init_lockInv init_tested

/-! ## Many changes of one page -/

/-- Lock page 0, block reads, write word 0, unlock. -/
def change : List Act :=
  [.tryLock 1 0 7, .block 1 0, .write 1 0 0 1, .unlock 1 0 false, .go 1 0, .go 1 0, .go 1 0, .go 1 0]

def changes : Nat → List Act
  | 0 => []
  | n + 1 => changes n ++ change

theorem run_append (s : St) (as bs : List Act) : run s (as ++ bs) = run (run s as) bs := by
  simp [run, List.foldl_append]

/-- The page is quiet with change count `n`, backend 1 is idle and holds nothing. -/
structure Calm (s : St) (n : Nat) : Prop where
  word : s.word 0 = ⟨none, false, false, n % 4294967296, 7⟩
  held : s.held 1 = []
  pc : s.pc 1 = .idle

theorem calm_change {s : St} {n : Nat} (h : Calm s n) :
    Calm (run s change) (n + 1) ∧ (run s change).mem 0 0 = 1 ∧
    (∀ q, q ≠ 1 → (run s change).pc q = s.pc q) := by
  have hw := h.word
  have hh := h.held
  have hp := h.pc
  have e : run s change = { s with
      word := upd (upd (upd s.word 0 ⟨none, true, false, n % 4294967296, 7⟩) 0
        ⟨none, true, true, n % 4294967296, 7⟩) 0
        ⟨none, false, false, (n % 4294967296 + 1) % 4294967296, 7⟩,
      mem := upd s.mem 0 (upd (s.mem 0) 0 1),
      held := upd (upd (upd s.held 1 [(0, ⟨none, true, false, n % 4294967296, 7⟩)]) 1
        [(0, ⟨none, true, true, n % 4294967296, 7⟩)]) 1 [],
      pc := upd (upd (upd (upd (upd s.pc 1 (.uread 0 false)) 1
        (.walk (unlStart 0 false ⟨none, true, true, n % 4294967296, 7⟩ none none none false))) 1
        (.ucas (unlStart 0 false ⟨none, true, true, n % 4294967296, 7⟩ none none none false))) 1
        (.wake 0 none)) 1 .idle,
      ver := upd s.ver 0 (s.ver 0 + 1) } := by
    simp [run, change, step, stepBlock, stepGo, stepWalk, stepUcas, unlExcl, unlPatch, unlStart,
      unlWord, St.isIdle, St.holds, St.heldState, St.goto, upd_same, hw, hh, hp]
  rw [e]
  refine ⟨⟨?_, ?_, ?_⟩, ?_, ?_⟩
  · simp only [upd_same]
    congr 1
    omega
  · simp only [upd_same]
  · simp only [upd_same]
  · simp only [upd_same]
  · intro q hq; simp only [upd_ne _ _ hq]

theorem calm_changes (n : Nat) : ∀ (s : St) (m : Nat), Calm s m →
    Calm (run s (changes n)) (m + n) ∧ (0 < n → (run s (changes n)).mem 0 0 = 1) ∧
    (∀ q, q ≠ 1 → (run s (changes n)).pc q = s.pc q) := by
  induction n with
  | zero => intro s m h; exact ⟨h, by intro hc; omega, fun _ _ => rfl⟩
  | succ n ih =>
    intro s m h
    obtain ⟨h1, h2, h3⟩ := ih s m h
    obtain ⟨h4, h5, h6⟩ := calm_change h1
    rw [changes, run_append]
    exact ⟨h4, fun _ => h5, fun q hq => by rw [h6 q hq, h3 q hq]⟩

theorem init_calm : Calm init 0 := ⟨rfl, rfl, rfl⟩

end Verif.PageState
