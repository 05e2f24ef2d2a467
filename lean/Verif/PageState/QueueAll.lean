import Verif.PageState.QueueUnl

/-!
# All steps

The complete invariant: besides the shape of the lists, (1) if a page is unlocked
and a waiter that wants its lock is on its list, then some backend has been
woken, or is about to be, and will try to take the lock (`TInv`); (2) a reader or
change waiter is on a list only while the condition it waits for does not hold
(`RInv`); (3) a woken sleeper finds its semaphore raised, or its waker is about to
raise it (`WInv`).
-/

namespace Verif.PageState

/-- The backend is in the loop that wakes the collected waiters. -/
def Pc.waking : Pc → Prop
  | .wake _ _ => True
  | .post _ _ _ => True
  | _ => False

/-- Backend `q` will look at the state word of page `b` again, in order to lock it. -/
def tok (s : St) (g : Ghost) (b q : Nat) : Prop :=
  ∃ k : Kind, k.locks = true ∧
    ((s.pc q = .sleep b k ∧ s.inserted q = false ∧
        (g.loc q = .none ∨ ∃ u, q ∈ g.w u ∧ (s.pc u).waking)) ∨
     s.pc q = .start b k ∨
     (∃ w, s.pc q = .loop b k w ∧ (k = .lock ∨ w.locked = false)) ∨
     (∃ w, s.pc q = .casLock b k w) ∨
     (∃ w, s.pc q = .casQueue b k w))

def TInv (s : St) (g : Ghost) : Prop :=
  ∀ b, (s.word b).locked = false → (∃ x, x ∈ g.list b ∧ lockWaiter s x) → ∃ q, tok s g b q

def RInv (s : St) (g : Ghost) : Prop :=
  ∀ b x k, x ∈ g.list b → s.pc x = .sleep b k → k.locks = true ∨ k.mustWait (s.word b) = true

def WInv (s : St) : Prop :=
  ∀ p b k, s.pc p = .sleep b k → s.status p = .wakeUp →
    0 < s.sem p ∨ ∃ u b' nx, s.pc u = .post b' p nx

structure Good (s : St) (g : Ghost) : Prop where
  lock : LockInv s
  tested : ∀ q, (s.pc q).tested
  q : QInv s g
  ti : TInv s g
  rd : RInv s g
  wk : WInv s

theorem init_good : Good init ghost0 where
  lock := init_lockInv
  tested := init_tested
  q := init_qInv
  ti := by intro b _ h; obtain ⟨x, hx, _⟩ := h; simp [Ghost.list, ghost0] at hx
  rd := by intro b x k hx; simp [Ghost.list, ghost0] at hx
  wk := by intro p b k hp; simp [init] at hp

section
variable {s t : St} {g g' : Ghost}

theorem tok_frame (h : QInv s g) (p : Nat)
    (hpc : ∀ q, q ≠ p → t.pc q = s.pc q)
    (hloc : ∀ q, q ≠ p → g.loc q = .none → g'.loc q = .none)
    (hw : ∀ u, u ≠ p → g'.w u = g.w u)
    (hin : ∀ q, (g.loc q = .none ∨ ∃ u, g.loc q = .wake u) → s.inserted q = false →
      t.inserted q = false)
    (hu : ∀ q, q ∈ g.w p → (s.pc p).waking →
      (q ∈ g'.w p ∧ (t.pc p).waking) ∨ g'.loc q = .none)
    (b : Nat) (hp : tok s g b p → tok t g' b p) (q : Nat) (hq : tok s g b q) : tok t g' b q := by
  by_cases hqp : q = p
  · subst hqp; exact hp hq
  · obtain ⟨k, hk, hc⟩ := hq
    refine ⟨k, hk, ?_⟩
    rw [hpc q hqp]
    rcases hc with ⟨h1, h2, h3⟩ | hc
    · left
      refine ⟨h1, ?_, ?_⟩
      · apply hin q _ h2
        rcases h3 with h3 | ⟨u, h3, _⟩
        · exact .inl h3
        · exact .inr ⟨u, (h.wake_mem u q).1 h3⟩
      · rcases h3 with h3 | ⟨u, h3, h4⟩
        · exact .inl (hloc q hqp h3)
        · by_cases hup : u = p
          · subst hup
            rcases hu q h3 h4 with h5 | h5
            · exact .inr ⟨u, h5⟩
            · exact .inl h5
          · exact .inr ⟨u, by rw [hw u hup]; exact h3, by rw [hpc u hup]; exact h4⟩
    · exact .inr hc

theorem TInv.step (h : TInv s g)
    (hb : ∀ b, (t.word b).locked = false → (s.word b).locked = false ∧
      (∀ x, x ∈ g'.list b → lockWaiter t x → x ∈ g.list b ∧ lockWaiter s x) ∧
      (∀ q, tok s g b q → tok t g' b q)) : TInv t g' := by
  intro b hl hx
  obtain ⟨h1, h2, h3⟩ := hb b hl
  obtain ⟨x, hx1, hx2⟩ := hx
  obtain ⟨q, hq⟩ := h b h1 ⟨x, h2 x hx1 hx2⟩
  exact ⟨q, h3 q hq⟩

theorem RInv.step (h : RInv s g)
    (hb : ∀ b x k, x ∈ g'.list b → t.pc x = .sleep b k →
      (x ∈ g.list b ∧ s.pc x = .sleep b k ∧
        (k.mustWait (s.word b) = true → k.locks = true ∨ k.mustWait (t.word b) = true)) ∨
      k.locks = true ∨ k.mustWait (t.word b) = true) : RInv t g' := by
  intro b x k hx hp
  rcases hb b x k hx hp with ⟨h1, h2, h3⟩ | h1
  · rcases h b x k h1 h2 with h4 | h4
    · exact .inl h4
    · exact h3 h4
  · exact h1

/-- A step of a backend between two plain points, with everything else as it was. -/
theorem Good.plain (h : Good s g) (p : Nat) (hl : LockInv t) (ht : ∀ q, (t.pc q).tested)
    (hp0 : (s.pc p).plain) (hpl : (t.pc p).plain) (hin : t.inserted = s.inserted)
    (hcq : ∀ b k w, t.pc p = .casQueue b k w → t.next p = w.tail ∧ t.status p = k.status)
    (hq : ∀ q, q ≠ p → Same s t q ∧ t.pc q = s.pc q)
    (hw : ∀ b, (t.word b).tail = (s.word b).tail)
    (hwl : ∀ b, (t.word b).locked = false → (s.word b).locked = false)
    (hwm : ∀ b k, Kind.mustWait k (s.word b) = true → k.locks = true ∨
      k.mustWait (t.word b) = true)
    (htk : ∀ b, (t.word b).locked = false → tok s g b p → tok t g b p)
    (hsem : ∀ q, q ≠ p → t.sem q = s.sem q) : Good t g := by
  obtain ⟨pf1, pf2, pf3, pf4, pf5⟩ := plain_facts hp0
  obtain ⟨pg1, pg2, pg3, pg4, pg5⟩ := plain_facts hpl
  have hlp : g.loc p = .none := h.q.loc_none pf1
  have hwp : g.w p = [] := (h.q.w_nil (.inl hp0)).1
  have hlw : ∀ x, x ≠ p → (lockWaiter t x ↔ lockWaiter s x) := by
    intro x hx
    simp only [lockWaiter, (hq x hx).1.2.1, (hq x hx).1.2.2]
  refine ⟨hl, ht, h.q.plainStep p hp0 hpl (by rw [hin]) hcq hq hw, ?_, ?_, ?_⟩
  · refine h.ti.step ?_
    intro b hb
    refine ⟨hwl b hb, ?_, ?_⟩
    · intro x hx hx2
      have hxp : x ≠ p := by
        intro hxp; subst hxp
        rw [h.q.page_mem, hlp] at hx; cases hx
      exact ⟨hx, (hlw x hxp).1 hx2⟩
    · refine tok_frame h.q p (fun q hqp => (hq q hqp).2) (fun _ _ h => h) (fun _ _ => rfl)
        (fun q _ hi => by rw [hin]; exact hi) ?_ b (htk b hb)
      intro q hq'; rw [hwp] at hq'; cases hq'
  · refine h.rd.step ?_
    intro b x k hx hxs
    have hxp : x ≠ p := by
      intro hxp; subst hxp; exact pg1 _ _ hxs
    exact .inl ⟨hx, by rw [← (hq x hxp).2]; exact hxs, hwm b k⟩
  · intro x b k hx hst
    have hxp : x ≠ p := by
      intro hxp; subst hxp; exact pg1 _ _ hx
    rw [(hq x hxp).2] at hx
    rw [(hq x hxp).1.2.1] at hst
    rcases h.wk x b k hx hst with h1 | ⟨u, b', nx, h1⟩
    · left; rw [hsem x hxp]; exact h1
    · right
      have hup : u ≠ p := by
        intro hup; subst hup; rw [h1] at hp0; exact hp0
      exact ⟨u, b', nx, by rw [(hq u hup).2]; exact h1⟩

/-- Nothing the wait lists depend on changes. -/
theorem Good.idle (h : Good s g) (hl : LockInv t) (hn : t.next = s.next)
    (hs : t.status = s.status) (hi : t.inserted = s.inserted) (hp : t.pc = s.pc)
    (hw : ∀ b, (t.word b).tail = (s.word b).tail)
    (hwl : ∀ b, (t.word b).locked = false → (s.word b).locked = false)
    (hwm : ∀ b k, Kind.mustWait k (s.word b) = true → k.locks = true ∨
      k.mustWait (t.word b) = true)
    (hsem : ∀ q b k, s.pc q = .sleep b k → s.status q = .wakeUp → s.sem q ≤ t.sem q) :
    Good t g := by
  refine ⟨hl, by rw [hp]; exact h.tested, h.q.frame0 hn hs hi hp hw, ?_, ?_, ?_⟩
  · refine h.ti.step ?_
    intro b hb
    refine ⟨hwl b hb, ?_, ?_⟩
    · intro x hx hx2
      simp only [lockWaiter, hs, hi] at hx2
      exact ⟨hx, hx2⟩
    · intro q hq
      simp only [PageState.tok, hp, hi] at hq ⊢
      exact hq
  · refine h.rd.step ?_
    intro b x k hx hxs
    rw [hp] at hxs
    exact .inl ⟨hx, hxs, hwm b k⟩
  · intro x b k hx hst
    rw [hp] at hx ⊢
    rw [hs] at hst
    rcases h.wk x b k hx hst with h1 | h1
    · left; have := hsem x b k hx hst; omega
    · exact .inr h1

/-- Steps of a backend in the unlock: it neither sleeps nor is it going to. -/
theorem Good.unl (h : Good s g) (p b : Nat) (hl : LockInv t) (ht : ∀ q, (t.pc q).tested)
    (hqi : QInv t g') (hnt : ∀ c, ¬ tok s g c p) (hns : ∀ c k, t.pc p ≠ .sleep c k)
    (hpc : ∀ q, q ≠ p → t.pc q = s.pc q) (hst : t.status = s.status)
    (hin : t.inserted = s.inserted) (hsem : t.sem = s.sem)
    (hnw : ¬ (s.pc p).waking)
    (hwd : t.word = s.word) (hlk : (s.word b).locked = true)
    (hloc : ∀ q, g.loc q = .none → g'.loc q = .none)
    (hw : ∀ u, u ≠ p → g'.w u = g.w u)
    (hlist : ∀ c, c ≠ b → g'.list c = g.list c)
    (hsub : ∀ x, x ∈ g'.list b → x ∈ g.list b) : Good t g' := by
  refine ⟨hl, ht, hqi, ?_, ?_, ?_⟩
  · refine h.ti.step ?_
    intro c hc
    rw [hwd] at hc
    have hcb : c ≠ b := by
      intro hcb; subst hcb; rw [hlk] at hc; cases hc
    refine ⟨hc, ?_, ?_⟩
    · intro x hx hx2
      rw [hlist c hcb] at hx
      simp only [lockWaiter, hst, hin] at hx2
      exact ⟨hx, hx2⟩
    · refine tok_frame h.q p hpc (fun q _ => hloc q) hw (fun q _ hi => by rw [hin]; exact hi)
        (fun q _ hk => absurd hk hnw) c (fun hk => absurd hk (hnt c))
  · refine h.rd.step ?_
    intro c x k hx hxs
    have hxp : x ≠ p := by
      intro hxp; subst hxp; exact hns _ _ hxs
    rw [hpc x hxp] at hxs
    rw [hwd]
    refine .inl ⟨?_, hxs, .inr⟩
    by_cases hcb : c = b
    · subst hcb; exact hsub x hx
    · rw [hlist c hcb] at hx; exact hx
  · intro x c k hx hst'
    have hxp : x ≠ p := by
      intro hxp; subst hxp; exact hns _ _ hx
    rw [hpc x hxp] at hx
    rw [hst] at hst'
    rcases h.wk x c k hx hst' with h1 | ⟨u, b', nx, h1⟩
    · left; rw [hsem]; exact h1
    · right
      have hup : u ≠ p := by
        intro hup; subst hup; rw [h1] at hnw; exact hnw trivial
      exact ⟨u, b', nx, by rw [hpc u hup]; exact h1⟩

end

section
variable {s t : St} {g g' : Ghost}

theorem not_tok_of {p b : Nat} (h : ∀ k, k.locks = true → s.pc p ≠ .sleep b k ∧ s.pc p ≠ .start b k ∧
    (∀ w, s.pc p ≠ .loop b k w) ∧ (∀ w, s.pc p ≠ .casLock b k w) ∧
    (∀ w, s.pc p ≠ .casQueue b k w)) : ¬ tok s g b p := by
  rintro ⟨k, hk, ⟨h1, _⟩ | h1 | ⟨w, h1, _⟩ | ⟨w, h1⟩ | ⟨w, h1⟩⟩
  · exact (h k hk).1 h1
  · exact (h k hk).2.1 h1
  · exact (h k hk).2.2.1 w h1
  · exact (h k hk).2.2.2.1 w h1
  · exact (h k hk).2.2.2.2 w h1

theorem tok_start {p b : Nat} {k : Kind} (hk : k.locks = true) (h : t.pc p = .start b k) :
    tok t g b p := ⟨k, hk, .inr (.inl h)⟩

theorem locks_cases {k : Kind} (h : k.locks = true) : k = .lock ∨ k = .insert := by
  cases k <;> simp_all [Kind.locks]

theorem tok_loop {p b : Nat} {k : Kind} {w : Word} (hk : k.locks = true)
    (h : t.pc p = .loop b k w) (hw : w.locked = false) :
    tok t g b p := ⟨k, hk, .inr (.inr (.inl ⟨w, h, .inr hw⟩))⟩

/-- The page a backend at a plain point of a waiting function deals with. -/
theorem tok_page {p b b' : Nat} {k : Kind} (h : tok s g b p)
    (hp : s.pc p = .start b' k ∨ (∃ w, s.pc p = .loop b' k w) ∨ (∃ w, s.pc p = .casLock b' k w) ∨
      (∃ w, s.pc p = .casQueue b' k w)) : b = b' ∧ k.locks = true := by
  obtain ⟨k', hk, ⟨h1, _⟩ | h1 | ⟨w, h1, _⟩ | ⟨w, h1⟩ | ⟨w, h1⟩⟩ := h <;>
  rcases hp with hp | ⟨w, hp⟩ | ⟨w, hp⟩ | ⟨w, hp⟩ <;> rw [h1] at hp <;> cases hp <;> exact ⟨rfl, hk⟩

theorem sameOf {q : Nat} (h1 : t.next q = s.next q) (h2 : t.status q = s.status q)
    (h3 : t.inserted q = s.inserted q) : Same s t q := ⟨h1, h2, h3⟩

/-- One round of the waiting loop. -/
theorem good_loop (h : Good s g) (p b : Nat) (k : Kind) (w : Word) (ch : Nat)
    (hpc : s.pc p = .loop b k w) (hl : LockInv (stepLoop s p b k w ch))
    (ht : ∀ q, ((stepLoop s p b k w ch).pc q).tested) : Good (stepLoop s p b k w ch) g := by
  have hpl : (s.pc p).plain := by rw [hpc]; trivial
  have hci : ∀ q, (stepLoop s p b k w ch).inserted q = s.inserted q := by
    intro q; unfold stepLoop; repeat' split
    all_goals rfl
  have hword : (stepLoop s p b k w ch).word = s.word := by
    unfold stepLoop; repeat' split
    all_goals rfl
  refine h.plain p hl ht hpl ?_ (funext hci) ?_ ?_ ?_ ?_ ?_ ?_ ?_
  · unfold stepLoop
    split
    · split
      · split
        · simp [St.goto, upd_same, Pc.plain]
        · split
          · exact hpl
          · simp [St.goto, upd_same, Pc.plain]
      · simp [upd_same, Pc.plain]
    · split <;> simp [St.goto, St.repost, upd_same, Pc.plain]
  · intro b' k' w'
    unfold stepLoop
    split
    · split
      · split
        · simp [St.goto, upd_same]
        · split
          · rw [hpc]; simp
          · simp [St.goto, upd_same]
      · simp only [upd_same]
        intro hc; cases hc
        exact ⟨rfl, rfl⟩
    · split <;> simp [St.goto, St.repost, upd_same]
  · intro q hq
    refine ⟨⟨?_, ?_, hci q⟩, ?_⟩ <;>
    · unfold stepLoop
      repeat' split
      all_goals simp [St.goto, St.repost, upd_ne _ _ hq]
  · intro c; rw [hword]
  · intro c; rw [hword]; exact id
  · intro c k'; rw [hword]; exact .inr
  · intro c hc htk
    obtain ⟨hcb, hk⟩ := tok_page htk (.inr (.inl ⟨w, hpc⟩))
    subst hcb
    have hd : k = .lock ∨ w.locked = false := by
      obtain ⟨k', hk', ⟨h1, _⟩ | h1 | ⟨w', h1, h2⟩ | ⟨w', h1⟩ | ⟨w', h1⟩⟩ := htk <;>
        rw [hpc] at h1 <;> cases h1
      exact h2
    rcases locks_cases hk with hkk | hkk
    · subst hkk
      refine ⟨.lock, rfl, ?_⟩
      cases hm : w.locked with
      | true => simp [stepLoop, Kind.mustWait, hm, upd_same]
      | false => simp [stepLoop, Kind.mustWait, hm, upd_same, St.goto]
    · subst hkk
      have hm : w.locked = false := by
        rcases hd with hd | hd
        · cases hd
        · exact hd
      refine ⟨.insert, rfl, ?_⟩
      simp [stepLoop, Kind.mustWait, hm, upd_same, St.goto]
  · intro q hq
    unfold stepLoop
    repeat' split
    all_goals simp [St.goto, St.repost, upd_ne _ _ hq]

theorem good_casLock (h : Good s g) (p b : Nat) (k : Kind) (w : Word) (ch : Nat)
    (hpc : s.pc p = .casLock b k w) (hl : LockInv (stepCasLock s p b k w ch))
    (ht : ∀ q, ((stepCasLock s p b k w ch).pc q).tested) : Good (stepCasLock s p b k w ch) g := by
  have hpl : (s.pc p).plain := by rw [hpc]; trivial
  have htp := h.tested p
  rw [hpc] at htp
  have hci : ∀ q, (stepCasLock s p b k w ch).inserted q = s.inserted q := by
    intro q; unfold stepCasLock; split
    · cases k <;> rfl
    · rfl
  have hok : s.word b = w → (stepCasLock s p b k w ch).word =
      upd s.word b { w with locked := true, usage := ch } := by
    intro hw; unfold stepCasLock; rw [if_pos hw]; cases k <;> rfl
  have hno : s.word b ≠ w → (stepCasLock s p b k w ch).word = s.word := by
    intro hw; unfold stepCasLock; rw [if_neg hw]; rfl
  refine h.plain p hl ht hpl ?_ (funext hci) ?_ ?_ ?_ ?_ ?_ ?_ ?_
  · unfold stepCasLock; split
    · cases k <;> simp [St.repost, upd_same, Pc.plain]
    · simp [St.goto, upd_same, Pc.plain]
  · intro b' k' w'
    unfold stepCasLock; split
    · cases k <;> simp [St.repost, upd_same]
    · simp [St.goto, upd_same]
  · intro q hq
    refine ⟨⟨?_, ?_, hci q⟩, ?_⟩ <;>
    · unfold stepCasLock; split
      · cases k <;> simp [St.repost, upd_ne _ _ hq]
      · simp [St.goto, upd_ne _ _ hq]
  · intro c
    by_cases hw : s.word b = w
    · rw [hok hw]
      by_cases hc : c = b
      · subst hc; rw [upd_same, hw]
      · rw [upd_ne _ _ hc]
    · rw [hno hw]
  · intro c
    by_cases hw : s.word b = w
    · rw [hok hw]
      by_cases hc : c = b
      · subst hc; rw [upd_same]; simp
      · rw [upd_ne _ _ hc]; exact id
    · rw [hno hw]; exact id
  · intro c k' hk'
    by_cases hw : s.word b = w
    · rw [hok hw]
      by_cases hc : c = b
      · subst hc; rw [upd_same]
        rw [hw] at hk'
        cases k' <;> simp_all [Kind.locks, Kind.mustWait]
      · rw [upd_ne _ _ hc]; exact .inr hk'
    · rw [hno hw]; exact .inr hk'
  · intro c hc htk
    obtain ⟨hcb, hk⟩ := tok_page htk (.inr (.inr (.inl ⟨w, hpc⟩)))
    subst hcb
    by_cases hw : s.word c = w
    · rw [hok hw, upd_same] at hc; cases hc
    · rw [hno hw] at hc
      refine tok_loop (k := k) (w := s.word c) hk ?_ hc
      simp [stepCasLock, hw, St.goto, upd_same]
  · intro q hq
    unfold stepCasLock; split
    · cases k <;> simp [St.repost, upd_ne _ _ hq]
    · simp [St.goto]

theorem good_casQueue (h : Good s g) (p b : Nat) (k : Kind) (w : Word) (ch : Nat)
    (hpc : s.pc p = .casQueue b k w) (hl : LockInv (stepCasQueue s p b k w ch))
    (ht : ∀ q, ((stepCasQueue s p b k w ch).pc q).tested) :
    ∃ g', Good (stepCasQueue s p b k w ch) g' := by
  have hpl : (s.pc p).plain := by rw [hpc]; trivial
  have htp : k.mustWait w = true := by have := h.tested p; rw [hpc] at this; exact this
  by_cases hw : s.word b = w
  · subst hw
    have hq := qInv_push h.q p b ch k hpc
    have hs : stepCasQueue s p b k (s.word b) ch = { s with
      word := upd s.word b { s.word b with tail := some p, usage := ch },
      pc := upd s.pc p (.sleep b k) } := by simp [stepCasQueue]
    rw [hs] at hl ht ⊢
    obtain ⟨hnx, hst⟩ := h.q.casq p b k _ hpc
    have hloc : g.loc p = .none := h.q.loc_none (by intro b k; rw [hpc]; simp)
    have hpw : g.w p = [] := (h.q.w_nil (.inl (by rw [hpc]; trivial))).1
    have hlist : ∀ c x, x ∈ Ghost.list { g with
        n := upd g.n b (p :: g.n b), loc := upd g.loc p (.page b) } c → x = p ∧ c = b ∨ x ∈ g.list c := by
      intro c x hx
      by_cases hc : c = b
      · subst hc
        rw [mem_list_iff] at hx
        dsimp only at hx
        rw [upd_same, List.mem_cons] at hx
        rw [mem_list_iff]
        grind
      · right; simpa [Ghost.list, upd_ne _ _ hc] using hx
    refine ⟨_, hl, ht, hq, ?_, ?_, ?_⟩
    · refine h.ti.step ?_
      intro c hc
      dsimp only at hc
      have hc2 : (s.word c).locked = false := by
        by_cases hcb : c = b
        · subst hcb; rw [upd_same] at hc; exact hc
        · rw [upd_ne _ _ hcb] at hc; exact hc
      have hkl : c = b → k.locks = false := by
        intro hcb; subst hcb
        cases hk : k.locks with
        | false => rfl
        | true =>
          rcases locks_cases hk with hkk | hkk <;> subst hkk <;> simp [Kind.mustWait, hc2] at htp
      refine ⟨hc2, ?_, ?_⟩
      · intro x hx hx2
        rcases hlist c x hx with ⟨h1, h2⟩ | h1
        · subst h1
          have := hkl h2
          have h3 := hx2.1
          dsimp only at h3
          rw [hst] at h3
          cases k <;> simp_all [Kind.locks, Kind.status]
        · exact ⟨h1, hx2⟩
      · refine tok_frame h.q p ?_ ?_ ?_ ?_ ?_ c ?_
        · intro q hq; exact upd_ne _ _ hq
        · intro q hq hq2; dsimp only; rw [upd_ne _ _ hq]; exact hq2
        · exact fun _ _ => rfl
        · exact fun _ _ hi => hi
        · intro q hq'; rw [hpw] at hq'; cases hq'
        · intro htk
          obtain ⟨hcb, hk⟩ := tok_page htk (.inr (.inr (.inr ⟨_, hpc⟩)))
          rw [hkl hcb] at hk; cases hk
    · refine h.rd.step ?_
      intro c x k' hx hxs
      dsimp only at hxs ⊢
      by_cases hxp : x = p
      · subst hxp
        rw [upd_same] at hxs
        cases hxs
        rw [upd_same]
        right; right
        cases k <;> exact htp
      · rw [upd_ne _ _ hxp] at hxs
        rcases hlist c x hx with ⟨h1, h2⟩ | h1
        · exact absurd h1 hxp
        · refine .inl ⟨h1, hxs, fun hm => .inr ?_⟩
          by_cases hcb : c = b
          · subst hcb; rw [upd_same]; cases k' <;> exact hm
          · rw [upd_ne _ _ hcb]; exact hm
    · intro x c k' hx hsx
      dsimp only at hx hsx ⊢
      by_cases hxp : x = p
      · subst hxp; rw [hst] at hsx; exact absurd hsx (status_ne_wakeUp k)
      · rw [upd_ne _ _ hxp] at hx
        rcases h.wk x c k' hx hsx with h1 | ⟨u, b', nx, h1⟩
        · exact .inl h1
        · right
          refine ⟨u, b', nx, ?_⟩
          have hup : u ≠ p := by
            intro hup; subst hup; rw [hpc] at h1; cases h1
          rw [upd_ne _ _ hup]; exact h1
  · have hs : stepCasQueue s p b k w ch = s.goto p (.loop b k (s.word b)) := by
      simp [stepCasQueue, hw]
    rw [hs] at hl ht ⊢
    refine ⟨g, h.plain p hl ht hpl ?_ rfl ?_ ?_ (fun _ => rfl) (fun _ => id) (fun _ _ => .inr) ?_
      (fun _ _ => rfl)⟩
    · simp [St.goto, upd_same, Pc.plain]
    · intro b' k' w'; simp [St.goto, upd_same]
    · intro q hq; exact ⟨⟨rfl, rfl, rfl⟩, upd_ne _ _ hq⟩
    · intro c hc htk
      obtain ⟨hcb, hk⟩ := tok_page htk (.inr (.inr (.inr ⟨_, hpc⟩)))
      subst hcb
      exact tok_loop (w := s.word c) hk (upd_same _ _ _) hc

end

end Verif.PageState
