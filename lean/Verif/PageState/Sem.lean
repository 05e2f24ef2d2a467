import Verif.PageState.Read

/-!
# Accounting of semaphore wake-ups

The invariant behind C37.
-/

namespace Verif.PageState

/-- The wake-ups a waiting function has absorbed so far and must hand back. -/
def Pc.owes : Pc → Int → Nat
  | .start _ _, e => e.toNat
  | .loop _ _ _, e => e.toNat
  | .casLock _ _ _, e => e.toNat
  | .casQueue _ _ _, e => e.toNat
  | .sleep _ _, e => e.toNat
  | _, _ => 0

/-- The kind of the call a backend is in. -/
def Pc.kind : Pc → Option Kind
  | .start _ k => some k
  | .loop _ k _ => some k
  | .casLock _ k _ => some k
  | .casQueue _ k _ => some k
  | .sleep _ k => some k
  | _ => none

/-- Does the call hand back what it absorbed? -/
def Kind.fair : Kind → Bool
  | .lock => true
  | .read => true
  | _ => false

/-- Never more than was received. -/
def SemLe (s : St) : Prop :=
  ∀ p, s.sem p + (s.pc p).owes (s.extra p) + s.used p ≤ s.recv p

/-- Exactly what was received, for a backend `p` in fair calls. -/
def SemEq (p : Nat) (s : St) : Prop :=
  s.sem p + (s.pc p).owes (s.extra p) + s.used p = s.recv p ∧
  (∀ k, (s.pc p).kind = some k → k.fair = true ∧ 0 ≤ s.extra p)

/-- The five numbers of backend `p` after a step in which `p` does nothing. -/
theorem other_go (s : St) (p q ch : Nat) (hpq : p ≠ q) :
    (stepGo s q ch).pc p = s.pc p ∧ (stepGo s q ch).extra p = s.extra p ∧
    (stepGo s q ch).used p = s.used p ∧
    ∃ d, (stepGo s q ch).sem p = s.sem p + d ∧ (stepGo s q ch).recv p = s.recv p + d := by
  unfold stepGo
  split
  case h_12 b r nx _ =>
    refine ⟨upd_ne _ _ hpq, rfl, rfl, ?_⟩
    by_cases h : p = r
    · subst h; exact ⟨1, by simp [upd_same], by simp [upd_same]⟩
    · exact ⟨0, by simp [upd_ne _ _ h], by simp [upd_ne _ _ h]⟩
  all_goals
    try unfold stepLoop
    try unfold stepCasLock
    try unfold stepCasQueue
    try unfold stepSleep
    try unfold stepWalk
    try unfold walkNode
    try unfold stepUcas
    repeat' split
  all_goals
    refine ⟨?_, ?_, ?_, 0, ?_, ?_⟩ <;>
      first
      | rfl
      | (simp only [St.goto, St.repost, upd_ne _ _ hpq]; done)
      | (simp [St.goto, St.repost, upd_ne _ _ hpq]; done)

/-- One step of `p` itself. -/
theorem self_go (s : St) (p ch : Nat)
    (h : s.sem p + (s.pc p).owes (s.extra p) + s.used p ≤ s.recv p) :
    (stepGo s p ch).sem p + ((stepGo s p ch).pc p).owes ((stepGo s p ch).extra p) +
      (stepGo s p ch).used p ≤ (stepGo s p ch).recv p := by
  unfold stepGo
  split
  case h_12 b r nx hpc =>
    rw [hpc] at h
    by_cases e : p = r
    · subst e
      simp only [upd_same, Pc.owes] at h ⊢
      omega
    · simp only [upd_same, upd_ne _ _ e, Pc.owes] at h ⊢
      omega
  all_goals
    rename_i hpc
    rw [hpc] at h
    try unfold stepLoop
    try unfold stepCasLock
    try unfold stepCasQueue
    try unfold stepSleep
    try unfold stepWalk
    try unfold walkNode
    try unfold stepUcas
    repeat' split
  all_goals
    simp only [St.goto, St.repost, upd_same, Pc.owes, afterRepost, hpc] at h ⊢
    first | omega | (repeat' split) <;> omega

theorem self_go_eq (s : St) (p ch : Nat) (ht : (s.pc p).tested) (h : SemEq p s) : SemEq p (stepGo s p ch) := by
  unfold SemEq at h ⊢
  unfold stepGo
  split
  case h_4 b k w hpc =>
    rw [hpc] at h ht
    obtain ⟨h, hk⟩ := h
    obtain ⟨h0, h1⟩ := hk _ rfl
    have hkl : k = .lock := by
      have := ht.1
      cases k <;> simp_all [Kind.fair, Kind.locks]
    subst hkl
    unfold stepCasLock
    split
    · simp only [St.repost, upd_same, Pc.owes, Pc.kind] at h ⊢
      exact ⟨by omega, by intro k hk; cases hk⟩
    · simp only [St.goto, upd_same, Pc.owes, Pc.kind] at h ⊢
      exact ⟨h, by intro k hk; cases hk; exact ⟨rfl, h1⟩⟩
  case h_12 b r nx hpc =>
    rw [hpc] at h
    by_cases e : p = r
    · subst e
      simp only [upd_same, Pc.owes, Pc.kind] at h ⊢
      exact ⟨by omega, by intro k hk; cases hk⟩
    · simp only [upd_same, upd_ne _ _ e, Pc.owes, Pc.kind] at h ⊢
      exact ⟨by omega, by intro k hk; cases hk⟩
  all_goals
    rename_i hpc
    rw [hpc] at h
    obtain ⟨h, hk⟩ := h
    try unfold stepLoop
    try unfold stepCasLock
    try unfold stepCasQueue
    try unfold stepSleep
    try unfold stepWalk
    try unfold walkNode
    try unfold stepUcas
    repeat' split
  all_goals
    simp only [St.goto, St.repost, upd_same, Pc.owes, Pc.kind, afterRepost, hpc] at h hk ⊢
    first
    | (refine ⟨?_, ?_⟩
       · omega
       · intro k hk'; cases hk'; done)
    | (obtain ⟨h0, h1⟩ := hk _ rfl
       refine ⟨?_, ?_⟩
       · omega
       · intro k hk'
         cases hk'
         first
         | exact ⟨h0, h1⟩
         | exact ⟨h0, by omega⟩
         | cases h0)
    | (have h0 := (hk _ rfl).1
       cases h0; done)
    | (have h0 := (hk _ rfl).1
       rename_i k _
       cases k <;> simp_all [Kind.fair])
    | (have h0 := (hk _ rfl).1
       simp_all [Kind.fair])

/-- Does the action start a call of backend `p` that does not hand back? -/
def Act.unfair (p : Nat) : Act → Bool
  | .call q _ k => q == p && !k.fair
  | .waitChange q _ _ => q == p
  | _ => false

/-- The numbers of backend `p` after an action that is not a step of some backend. -/
theorem plain_step (s : St) (p : Nat) (a : Act) (hg : ∀ q ch, a ≠ .go q ch) :
    ((step s a).pc p = s.pc p ∧ (step s a).extra p = s.extra p ∧
      ∃ d e, (step s a).sem p + d = s.sem p + e ∧ (step s a).used p = s.used p + d ∧
        (step s a).recv p = s.recv p + e) ∨
    ((s.pc p).kind = none ∧ (step s a).sem p = s.sem p ∧ (step s a).used p = s.used p ∧
      (step s a).recv p = s.recv p ∧
      (((step s a).pc p).kind = none ∨
       (step s a).extra p = 0 ∧ ∃ b k, (step s a).pc p = .start b k ∧
        (a.unfair p = false → k.fair = true))) := by
  have keep : ∀ t : St, t.pc p = s.pc p → t.extra p = s.extra p → t.sem p = s.sem p →
      t.used p = s.used p → t.recv p = s.recv p →
      t.pc p = s.pc p ∧ t.extra p = s.extra p ∧
      ∃ d e, t.sem p + d = s.sem p + e ∧ t.used p = s.used p + d ∧ t.recv p = s.recv p + e :=
    fun t h1 h2 h3 h4 h5 => ⟨h1, h2, 0, 0, by rw [h3], h4, h5⟩
  have gt : ∀ (q : Nat) (c : Pc), (s.pc q).kind = none → c.kind = none →
      ((s.goto q c).pc p = s.pc p ∧ (s.goto q c).extra p = s.extra p ∧
      ∃ d e, (s.goto q c).sem p + d = s.sem p + e ∧ (s.goto q c).used p = s.used p + d ∧
        (s.goto q c).recv p = s.recv p + e) ∨
      ((s.pc p).kind = none ∧ (s.goto q c).sem p = s.sem p ∧ (s.goto q c).used p = s.used p ∧
      (s.goto q c).recv p = s.recv p ∧
      (((s.goto q c).pc p).kind = none ∨
       (s.goto q c).extra p = 0 ∧ ∃ b k, (s.goto q c).pc p = .start b k ∧
        (a.unfair p = false → k.fair = true))) := by
    intro q c h1 h2
    by_cases hq : p = q
    · subst hq
      exact .inr ⟨h1, rfl, rfl, rfl, .inl (by simp only [St.goto, upd_same]; exact h2)⟩
    · exact .inl (keep _ (upd_ne _ _ hq) rfl rfl rfl rfl)
  cases a with
  | go q ch => exact absurd rfl (hg q ch)
  | call q b k =>
    rw [step]
    split
    · rename_i hc
      simp only [Bool.and_eq_true] at hc
      by_cases hq : p = q
      · subst hq
        refine .inr ⟨by rw [isIdle_iff hc.1.1]; rfl, rfl, rfl, rfl,
          .inr ⟨upd_same _ _ _, b, k, upd_same _ _ _, ?_⟩⟩
        intro h; simpa [Act.unfair] using h
      · exact .inl (keep _ (upd_ne _ _ hq) (upd_ne _ _ hq) rfl rfl rfl)
    · exact .inl (keep _ rfl rfl rfl rfl rfl)
  | waitChange q b c =>
    rw [step]
    split
    · rename_i hc
      by_cases hq : p = q
      · subst hq
        refine .inr ⟨by rw [isIdle_iff hc]; rfl, rfl, rfl, rfl,
          .inr ⟨upd_same _ _ _, b, _, upd_same _ _ _, ?_⟩⟩
        intro h; simp [Act.unfair] at h
      · exact .inl (keep _ (upd_ne _ _ hq) (upd_ne _ _ hq) rfl rfl rfl)
    · exact .inl (keep _ rfl rfl rfl rfl rfl)
  | signal q =>
    rw [step]
    by_cases hq : p = q
    · subst hq
      exact .inl ⟨rfl, rfl, 0, 1, upd_same _ _ _, rfl, upd_same _ _ _⟩
    · exact .inl (keep _ rfl rfl (upd_ne _ _ hq) rfl (upd_ne _ _ hq))
  | take q =>
    rw [step]
    split
    · rename_i hc
      simp only [Bool.and_eq_true, decide_eq_true_eq] at hc
      by_cases hq : p = q
      · subst hq
        refine .inl ⟨rfl, rfl, 1, 0, ?_, upd_same _ _ _, rfl⟩
        show upd s.sem p (s.sem p - 1) p + 1 = s.sem p + 0
        rw [upd_same]; omega
      · exact .inl (keep _ rfl rfl (upd_ne _ _ hq) (upd_ne _ _ hq) rfl)
    · exact .inl (keep _ rfl rfl rfl rfl rfl)
  | unlock q b sp =>
    rw [step]
    split
    · rename_i hc
      simp only [Bool.and_eq_true] at hc
      exact gt q _ (by rw [isIdle_iff hc.1]; rfl) rfl
    · exact .inl (keep _ rfl rfl rfl rfl rfl)
  | read q b =>
    rw [step]
    split
    · rename_i hc
      simp only [Bool.and_eq_true] at hc
      exact gt q _ (by rw [isIdle_iff hc.1]; rfl) rfl
    · exact .inl (keep _ rfl rfl rfl rfl rfl)
  | accept q =>
    rw [step]
    split
    · rename_i hpc
      split
      · exact .inl (keep _ rfl rfl rfl rfl rfl)
      · exact gt q _ (by rw [hpc]; rfl) rfl
    · exact .inl (keep _ rfl rfl rfl rfl rfl)
  | drop q =>
    rw [step]
    split
    · rename_i hpc
      exact gt q _ (by rw [hpc]; rfl) rfl
    · exact .inl (keep _ rfl rfl rfl rfl rfl)
  | block q b =>
    rw [step]; unfold stepBlock
    repeat' split
    all_goals exact .inl (keep _ rfl rfl rfl rfl rfl)
  | _ =>
    rw [step]
    repeat' split
    all_goals exact .inl (keep _ rfl rfl rfl rfl rfl)

theorem owes_none {c : Pc} (h : c.kind = none) (e : Int) : c.owes e = 0 := by
  cases c <;> first | rfl | cases h

theorem semLe_step {s : St} (h : SemLe s) (a : Act) : SemLe (step s a) := by
  intro p
  have hp := h p
  by_cases hg : ∃ q ch, a = .go q ch
  · obtain ⟨q, ch, rfl⟩ := hg
    show (stepGo s q ch).sem p + ((stepGo s q ch).pc p).owes ((stepGo s q ch).extra p) +
      (stepGo s q ch).used p ≤ (stepGo s q ch).recv p
    by_cases hpq : p = q
    · subst hpq; exact self_go s p ch hp
    · obtain ⟨h1, h2, h3, d, h4, h5⟩ := other_go s p q ch hpq
      rw [h1, h2, h3, h4, h5]; omega
  · rcases plain_step s p a (fun q ch e => hg ⟨q, ch, e⟩) with
      ⟨h1, h2, d, e, h3, h4, h5⟩ | ⟨h1, h2, h3, h4, h5⟩
    · rw [h1, h2, h4, h5]; omega
    · rw [owes_none h1] at hp
      rw [h2, h3, h4]
      rcases h5 with h5 | ⟨h5, b, k, h6, _⟩
      · rw [owes_none h5]; exact hp
      · rw [h6, h5]; exact hp

theorem semEq_step {p : Nat} {s : St} (h : SemEq p s) (ht : (s.pc p).tested) (a : Act) (ha : a.unfair p = false) :
    SemEq p (step s a) := by
  by_cases hg : ∃ q ch, a = .go q ch
  · obtain ⟨q, ch, rfl⟩ := hg
    show SemEq p (stepGo s q ch)
    by_cases hpq : p = q
    · subst hpq; exact self_go_eq s p ch ht h
    · obtain ⟨h1, h2, h3, d, h4, h5⟩ := other_go s p q ch hpq
      obtain ⟨e1, e2⟩ := h
      unfold SemEq
      rw [h1, h2, h3, h4, h5]; exact ⟨by omega, e2⟩
  · obtain ⟨e1, e2⟩ := h
    unfold SemEq
    rcases plain_step s p a (fun q ch e => hg ⟨q, ch, e⟩) with
      ⟨h1, h2, d, e, h3, h4, h5⟩ | ⟨h1, h2, h3, h4, h5⟩
    · rw [h1, h2, h4, h5]; exact ⟨by omega, e2⟩
    · rw [owes_none h1] at e1
      rw [h2, h3, h4]
      rcases h5 with h5 | ⟨h5, b, k, h6, h7⟩
      · rw [owes_none h5, h5]; exact ⟨e1, by intro k hk; cases hk⟩
      · rw [h6, h5]
        exact ⟨e1, by intro k hk; cases hk; exact ⟨h7 ha, Int.le_refl 0⟩⟩

theorem run_semLe (as : List Act) : ∀ s : St, SemLe s → SemLe (run s as) := by
  induction as with
  | nil => intro s h; exact h
  | cons a as ih => intro s h; exact ih _ (semLe_step h a)

theorem run_semEq (p : Nat) (as : List Act) : ∀ s : St, SemEq p s → (∀ q, (s.pc q).tested) →
    (∀ a, a ∈ as → a.unfair p = false) → SemEq p (run s as) := by
  induction as with
  | nil => intro s h _ _; exact h
  | cons a as ih =>
    intro s h ht ha
    exact ih _ (semEq_step h (ht p) a (ha a (List.mem_cons_self ..))) (tested_step ht a)
      (fun x hx => ha x (List.mem_cons_of_mem _ hx))

theorem init_semLe : SemLe init := fun _ => Nat.le_refl 0

theorem init_semEq (p : Nat) : SemEq p init := ⟨rfl, by intro k hk; cases hk⟩

end Verif.PageState
