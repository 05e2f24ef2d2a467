import Verif.PageState.Sem
import Verif.PageState.Bits

/-!
# C13, C14, C15, C37, C38: page locks, waiters, unlocked reads
-/

namespace Verif.PageState

/-! ## C13: page locks are exclusive

English claim: at most one backend at a time holds the exclusive lock on a page,
whatever the interleaving of lock, try-lock, queueing and unlock. -/

/-- Two backends that both hold a page are the same backend. -/
theorem C13_exclusive (as : List Act) (b p q : Nat)
    (hp : (run init as).holds p b = true) (hq : (run init as).holds q b = true) : p = q := by
  have h := reach_lockInv as
  obtain ⟨v, hv⟩ := (holds_iff _ _ _).1 hp
  obtain ⟨w, hw⟩ := (holds_iff _ _ _).1 hq
  exact h.excl p q _ _ hv hw rfl

/-- The lock word says so: a page is marked locked exactly while somebody holds it,
and nobody holds a page twice. -/
theorem C13_word (as : List Act) (b : Nat) :
    ((run init as).word b).locked = true ↔ ∃ p, (run init as).holds p b = true := by
  have h := reach_lockInv as
  constructor
  · intro hb
    obtain ⟨p, w, hw⟩ := h.owner b hb
    exact ⟨p, (holds_iff _ _ _).2 ⟨w, hw⟩⟩
  · rintro ⟨p, hp⟩
    obtain ⟨w, hw⟩ := (holds_iff _ _ _).1 hp
    have := h.held_word p _ hw
    rw [← this.2.1]; exact this.1

/-- A lock is taken only when nobody holds the page. -/
theorem C13_acquire (as : List Act) (a : Act) (b p : Nat)
    (h0 : (run init as).holds p b = false) (h1 : (step (run init as) a).holds p b = true) :
    ∀ q, (run init as).holds q b = false := by
  have hl : ((run init as).word b).locked = false := by
    have ht := reach_tested as
    generalize run init as = s at h0 h1 ht
    have same : ∀ t : St, t.held = s.held → t.holds p b = true → False := by
      intro t e h; unfold St.holds at h h0; rw [e] at h; rw [h] at h0; cases h0
    have add : ∀ (q c : Nat) (w : Word) (t : St), t.held = upd s.held q ((c, w) :: s.held q) →
        t.holds p b = true → b = c := by
      intro q c w t e h
      unfold St.holds at h h0; rw [e] at h
      by_cases hq : p = q
      · subst hq
        rw [upd_same, List.any_cons, h0, Bool.or_false] at h
        simpa using (beq_iff_eq.1 h).symm
      · rw [upd_ne _ _ hq, h0] at h; cases h
    cases a with
    | tryLock q c ch =>
      rw [step] at h1
      split at h1
      · rename_i hc
        simp only [Bool.and_eq_true, Bool.not_eq_true'] at hc
        rw [add q c _ _ rfl h1]; exact hc.2
      · exact (same _ rfl h1).elim
    | go q ch =>
      have h1 : (stepGo s q ch).holds p b = true := h1
      cases hpc : s.pc q with
      | casLock c k w =>
        have hw := ht q
        rw [hpc] at hw
        have : stepGo s q ch = stepCasLock s q c k w ch := by unfold stepGo; rw [hpc]
        rw [this] at h1
        unfold stepCasLock at h1
        split at h1
        · rename_i he
          have hb : b = c := by
            cases k <;> exact add q c _ _ rfl h1
          rw [hb, he]
          exact hw.2
        · exact (same _ rfl h1).elim
      | ucas u =>
        have : stepGo s q ch = stepUcas s q u := by unfold stepGo; rw [hpc]
        rw [this] at h1
        unfold stepUcas at h1
        split at h1
        · exfalso
          unfold St.holds at h1 h0
          dsimp only at h1
          by_cases hq : p = q
          · subst hq
            rw [upd_same] at h1
            obtain ⟨x, hx, hxb⟩ := List.any_eq_true.1 h1
            rw [List.any_eq_true.2 ⟨x, (List.mem_filter.1 hx).1, hxb⟩] at h0; cases h0
          · rw [upd_ne _ _ hq, h0] at h1; cases h1
        · exact (same _ rfl h1).elim
      | _ =>
        refine (same (stepGo s q ch) ?_ h1).elim
        unfold stepGo stepLoop stepCasQueue stepSleep stepWalk walkNode
        rw [hpc]
        repeat' split
        all_goals first | rfl | (rename_i hx; cases hx)
    | block q c =>
      exfalso
      rw [step] at h1; unfold stepBlock at h1
      repeat' split at h1
      · exact same _ rfl h1
      · exact same _ rfl h1
      · unfold St.holds at h1 h0
        dsimp only at h1
        by_cases hq : p = q
        · subst hq
          rw [upd_same] at h1
          obtain ⟨x, hx, hxb⟩ := List.any_eq_true.1 h1
          obtain ⟨y, hy, rfl⟩ := List.mem_map.1 hx
          have : (s.held p).any (fun e => e.1 == b) = true := by
            refine List.any_eq_true.2 ⟨y, hy, ?_⟩
            split at hxb
            · rename_i hyc; rw [hyc]; exact hxb
            · exact hxb
          rw [this] at h0; cases h0
        · rw [upd_ne _ _ hq, h0] at h1; cases h1
      · exact same _ rfl h1
    | _ =>
      exfalso
      refine same _ ?_ h1
      rw [step]
      repeat' split
      all_goals rfl
  intro q
  cases hq : (run init as).holds q b with
  | false => rfl
  | true => rw [(C13_word as b).2 ⟨q, hq⟩] at hl; cases hl

/-- The contents of a page change only by a backend that holds it with reads
blocked. -/
theorem C13_writer (as : List Act) (a : Act) (b : Nat)
    (h : (step (run init as) a).mem b ≠ (run init as).mem b) :
    ∃ p i v, a = .write p b i v ∧ (run init as).holds p b = true ∧
      ((run init as).word b).noRead = true := by
  generalize run init as = s at h
  cases a with
  | write p c i v =>
    rw [step] at h
    split at h
    · rename_i hc
      simp only [Bool.and_eq_true] at hc
      by_cases hb : b = c
      · subst hb; exact ⟨p, i, v, rfl, hc.1.2, hc.2⟩
      · exact absurd (upd_ne _ _ hb) h
    · exact absurd rfl h
  | go p ch =>
    exfalso; apply h
    show (stepGo s p ch).mem b = s.mem b
    unfold stepGo stepLoop stepCasLock stepCasQueue stepSleep stepWalk walkNode stepUcas
    repeat' split
    all_goals rfl
  | block p c =>
    exfalso; apply h
    rw [step]; unfold stepBlock
    repeat' split
    all_goals rfl
  | _ =>
    exfalso; apply h
    rw [step]
    repeat' split
    all_goals rfl

/-- Backend 1 holds page 0 while backend 2 has queued itself and backend 3 is about
to compare; backend 1 unlocks, backend 3 barges in, backend 2 is woken. -/
def exRun : List Act :=
  [.tryLock 1 0 7, .call 2 0 .lock, .go 2 0, .go 2 0, .go 2 7, .call 3 0 .lock, .go 3 0,
   .unlock 1 0 false, .go 1 0, .go 1 0, .go 1 0, .go 1 0, .go 1 0, .tryLock 3 0 7]

example : (run init (exRun.take 7)).holds 1 0 = true ∧
    (run init (exRun.take 7)).pc 2 = .sleep 0 .lock := ⟨by decide, rfl⟩

/-! ## C14: no page waiter is lost

English claim: every backend that queued itself on a page is either still in the
page's wait list or has been woken; an unlock removes exactly the waiters it wakes,
keeps the others, and wakes at least one lock waiter if there is any. -/

/-- Backend `p` has queued itself on page `b` and sleeps; nobody has told it to wake up. -/
def Waits (s : St) (b p : Nat) : Prop :=
  ∃ k, s.pc p = .sleep b k ∧ s.status p ≠ .wakeUp

/-- `p` is found by following the wait list of page `b`. -/
def InList (s : St) (b p : Nat) : Prop := ∃ n, p ∈ follow s.next n (s.word b).tail

/-- Backend `u` has unlocked a page and `p` is among those it is still going to wake. -/
def ToWake (s : St) (u p : Nat) : Prop :=
  ∃ b h n, (s.pc u = .wake b h ∨ ∃ q, s.pc u = .post b q h) ∧ p ∈ follow s.next n h

/-- Some backend is in the middle of unlocking the page: it has read the state word
and has not yet replaced it. -/
def BeingUnlocked (s : St) (b : Nat) : Prop := ∃ u, (s.pc u).unlPage = some b

/-- A waiter that wants the lock for itself. -/
def WantsLock (s : St) (p : Nat) : Prop :=
  ∃ b k, s.pc p = .sleep b k ∧ k.locks = true ∧ s.inserted p = false

theorem chain_mem {n : Nat → Option Nat} {h : Option Nat} {l : List Nat} (hc : Chain n h l none)
    (x : Nat) : (∃ f, x ∈ follow n f h) ↔ x ∈ l := by
  constructor
  · rintro ⟨f, hf⟩; rw [hc.follow] at hf; exact List.mem_of_mem_take hf
  · intro hx; exact ⟨l.length, by rw [hc.follow, List.take_length]; exact hx⟩

section
variable {s : St} {g : Ghost}

theorem Good.inList (h : Good s g) {b : Nat} (hb : ¬ BeingUnlocked s b) (p : Nat) :
    InList s b p ↔ p ∈ g.list b := by
  obtain ⟨f1, f2, f3, f4⟩ := h.q.free b (fun u hu => hb ⟨u, hu⟩)
  have : g.list b = g.n b := by simp [Ghost.list, f2, f3, f4]
  rw [this]
  exact chain_mem f1 p

theorem Good.toWake (h : Good s g) (u p : Nat) :
    ToWake s u p ↔ p ∈ g.w u ∧ (s.pc u).waking := by
  constructor
  · rintro ⟨b, hd, n, hpc, hm⟩
    have hu := h.q.unl u
    rcases hpc with hpc | ⟨q, hpc⟩ <;> rw [hpc] at hu ⊢ <;>
      exact ⟨(chain_mem (l := g.w u) hu p).1 ⟨n, hm⟩, trivial⟩
  · rintro ⟨h1, h2⟩
    have hu := h.q.unl u
    cases hpc : s.pc u with
    | wake b hd =>
      rw [hpc] at hu
      obtain ⟨n, hn⟩ := (chain_mem (l := g.w u) hu p).2 h1
      exact ⟨b, hd, n, .inl hpc, hn⟩
    | post b q hd =>
      rw [hpc] at hu
      obtain ⟨n, hn⟩ := (chain_mem (l := g.w u) hu p).2 h1
      exact ⟨b, hd, n, .inr ⟨q, hpc⟩, hn⟩
    | _ => rw [hpc] at h2; exact absurd h2 (by simp [Pc.waking])

/-- The page of the list a waiter is on. -/
theorem Good.place (h : Good s g) {b p : Nat} (hw : Waits s b p) :
    p ∈ g.list b ∨ ∃ u, p ∈ g.w u ∧ (s.pc u).actPage = some b := by
  obtain ⟨k, h1, h2⟩ := hw
  cases hl : g.loc p with
  | none => exact absurd (h.q.woken p b k h1 hl) h2
  | page c =>
    obtain ⟨b', k', h3, _, h4, _⟩ := h.q.sleeper p (by rw [hl]; simp)
    rw [h1] at h3; cases h3
    have := h4 c hl
    subst this
    exact .inl ((h.q.page_mem c p).2 hl)
  | wake u =>
    obtain ⟨b', k', h3, _, _, h4⟩ := h.q.sleeper p (by rw [hl]; simp)
    rw [h1] at h3; cases h3
    exact .inr ⟨u, (h.q.wake_mem u p).2 hl, h4 u hl⟩

theorem Good.waits_of_list (h : Good s g) {b p : Nat} (hp : p ∈ g.list b) : Waits s b p := by
  have hl := (h.q.page_mem b p).1 hp
  obtain ⟨b', k', h1, h2, h3, _⟩ := h.q.sleeper p (by rw [hl]; simp)
  have := h3 b hl
  subst this
  exact ⟨k', h1, by rw [h2]; exact status_ne_wakeUp k'⟩

theorem act_cases {c : Pc} {b : Nat} (h : c.actPage = some b) :
    c.unlPage = some b ∨ c.waking := by
  cases c <;> simp_all [Pc.actPage, Pc.unlPage, Pc.waking]

end

/-- No waiter is lost: whoever sleeps on a page and was not told to wake up is on the
wait list of the page, or about to be woken, or the page is just being unlocked. -/
theorem C14_not_lost (as : List Act) (b p : Nat) (hw : Waits (run init as) b p) :
    InList (run init as) b p ∨ (∃ u, ToWake (run init as) u p) ∨ BeingUnlocked (run init as) b := by
  obtain ⟨g, h⟩ := reach_good as
  by_cases hb : BeingUnlocked (run init as) b
  · exact .inr (.inr hb)
  · rcases h.place hw with h1 | ⟨u, h1, h2⟩
    · exact .inl ((h.inList hb p).2 h1)
    · rcases act_cases h2 with h3 | h3
      · exact absurd ⟨u, h3⟩ hb
      · exact .inr (.inl ⟨u, (h.toWake u p).2 ⟨h1, h3⟩⟩)

/-- And nobody else is on the list: it holds exactly the unwoken sleepers of this page
that no unlocker has removed. -/
theorem C14_list_exact (as : List Act) (b p : Nat) (hb : ¬ BeingUnlocked (run init as) b) :
    InList (run init as) b p ↔
      Waits (run init as) b p ∧ ¬ ∃ u, ToWake (run init as) u p := by
  obtain ⟨g, h⟩ := reach_good as
  rw [h.inList hb]
  constructor
  · intro hp
    refine ⟨h.waits_of_list hp, ?_⟩
    rintro ⟨u, hu⟩
    exact h.q.not_page_wake hp ((h.toWake u p).1 hu).1
  · rintro ⟨h1, h2⟩
    rcases h.place h1 with h3 | ⟨u, h3, h4⟩
    · exact h3
    · rcases act_cases h4 with h5 | h5
      · exact absurd ⟨u, h5⟩ hb
      · exact absurd ⟨u, (h.toWake u p).2 ⟨h3, h5⟩⟩ h2

/-- A waiter is on one list only: it is not going to be woken twice. -/
theorem C14_woken_once (as : List Act) (u v p : Nat)
    (hu : ToWake (run init as) u p) (hv : ToWake (run init as) v p) : u = v := by
  obtain ⟨g, h⟩ := reach_good as
  exact h.q.wake_uniq ((h.toWake u p).1 hu).1 ((h.toWake v p).1 hv).1

/-- A sleeper told to wake up finds its semaphore raised, or its waker is about to
raise it. -/
theorem C14_woken_runs (as : List Act) (b p : Nat) (k : Kind)
    (hp : (run init as).pc p = .sleep b k) (hs : (run init as).status p = .wakeUp) :
    0 < (run init as).sem p ∨ ∃ u b' nx, (run init as).pc u = .post b' p nx := by
  obtain ⟨g, h⟩ := reach_good as
  exact h.wk p b k hp hs

/-- The list walk never leaves the array of waiters. -/
theorem C14_no_crash (as : List Act) (p : Nat) : (run init as).pc p ≠ .crash := by
  obtain ⟨g, h⟩ := reach_good as
  exact h.q.nocrash p

/-- The moment an unlock takes effect.  Everybody who was waiting on the page, and
whom no earlier unlocker is going to wake, is afterwards either on the list or among
those to be woken; those left on the list all wait for the lock, hence the unlock
wakes every reader, every change waiter and every waiter whose tuple was inserted
for it (after a split, also every waiter with a tuple); and if anybody is left, or
was waiting for the lock, the unlock wakes somebody who will try to take the lock. -/
theorem C14_unlock (as : List Act) (p ch : Nat) (u : Unl)
    (hpc : (run init as).pc p = .ucas u) (hw : (run init as).word u.b = u.s) :
    (∀ q, Waits (run init as) u.b q → (∀ v, ¬ ToWake (run init as) v q) →
      (InList (step (run init as) (.go p ch)) u.b q ∧
        ¬ ToWake (step (run init as) (.go p ch)) p q) ∨
      (ToWake (step (run init as) (.go p ch)) p q ∧
        ¬ InList (step (run init as) (.go p ch)) u.b q)) ∧
    (∀ q, InList (step (run init as) (.go p ch)) u.b q →
      WantsLock (run init as) q ∧ (u.split = true → (run init as).status q = .exclusive)) ∧
    (∀ q, Waits (run init as) u.b q → WantsLock (run init as) q →
      (∀ v, ¬ ToWake (run init as) v q) →
      ∃ e, ToWake (step (run init as) (.go p ch)) p e ∧ WantsLock (run init as) e) ∧
    ((step (run init as) (.go p ch)).word u.b).locked = false := by
  obtain ⟨g, h⟩ := reach_good as
  have hgo := good_step h (.go p ch)
  have e : step (run init as) (.go p ch) = run init (as ++ [.go p ch]) := by simp [run]
  generalize run init as = s at *
  clear hgo
  have hu : Ucas s g p u := by have := h.q.unl p; rw [hpc] at this; exact this
  obtain ⟨hq, hn⟩ := qInv_ucas h.q h.lock p u hpc
  have hn := hn hw
  rw [if_pos hw] at hq
  have hst : step s (.go p ch) = stepUcas s p u := by
    show stepGo s p ch = _
    unfold stepGo; rw [hpc]
  rw [hst]
  have hs : stepUcas s p u = { s with
      word := upd s.word u.b (unlWord u.s u.newTail),
      ver := upd s.ver u.b (if u.s.noRead then s.ver u.b + 1 else s.ver u.b),
      held := upd s.held p ((s.held p).filter (fun e => e.1 != u.b)),
      pc := upd s.pc p (.wake u.b u.wakeHead) } := by
    unfold stepUcas; rw [if_pos hw]
  have huniq : ∀ v, v ≠ p → (s.pc v).unlPage ≠ some u.b :=
    fun v hv hc => hv (h.lock.unl_unique (p := p) (w := some u.s) (by rw [hpc]; rfl) hc).symm
  have hlist : ∀ q, InList (stepUcas s p u) u.b q ↔ q ∈ g.o u.b := by
    intro q
    rw [hs]
    have : Chain s.next ((upd s.word u.b (unlWord u.s u.newTail)) u.b).tail (g.o u.b) none := by
      rw [upd_same]; exact hu.old
    exact chain_mem this q
  have hwake : ∀ q, ToWake (stepUcas s p u) p q ↔ q ∈ g.w p := by
    intro q
    rw [hs]
    constructor
    · rintro ⟨b, hd, n, h1, h2⟩
      dsimp only at h1 h2
      rw [upd_same] at h1
      rcases h1 with h1 | ⟨_, h1⟩ <;> cases h1
      exact (chain_mem hu.wake q).1 ⟨n, h2⟩
    · intro hq
      obtain ⟨n, hn⟩ := (chain_mem hu.wake q).2 hq
      exact ⟨u.b, u.wakeHead, n, .inl (upd_same _ _ _), hn⟩
  have hgl : g.list u.b = g.o u.b := by simp [Ghost.list, hn, hu.k_nil, hu.r_nil]
  have hpl : ∀ q, Waits s u.b q → (∀ v, ¬ ToWake s v q) → q ∈ g.o u.b ∨ q ∈ g.w p := by
    intro q h1 h2
    rcases h.place h1 with h3 | ⟨v, h3, h4⟩
    · left; rw [← hgl]; exact h3
    · right
      rcases act_cases h4 with h5 | h5
      · by_cases hv : v = p
        · subst hv; exact h3
        · exact absurd h5 (huniq v hv)
      · exact absurd ((h.toWake v q).2 ⟨h3, h5⟩) (h2 v)
  have hlw : ∀ x, lockWaiter s x → g.loc x ≠ .none → WantsLock s x := by
    intro x hx hl
    obtain ⟨b', k', h1, h2, _⟩ := h.q.sleeper x hl
    refine ⟨b', k', h1, ?_, hx.2⟩
    have h3 := hx.1
    rw [h2] at h3
    cases k' <;> simp_all [Kind.status, Kind.locks]
  refine ⟨?_, ?_, ?_, ?_⟩
  · intro q h1 h2
    rw [hlist, hwake]
    rcases hpl q h1 h2 with h3 | h3
    · exact .inl ⟨h3, fun h4 => h.q.not_page_wake (by rw [hgl]; exact h3) h4⟩
    · exact .inr ⟨h3, fun h4 => h.q.not_page_wake (by rw [hgl]; exact h4) h3⟩
  · intro q hq'
    rw [hlist] at hq'
    have hsw := hu.stay q hq'
    simp only [shouldWake, Bool.or_eq_false_iff] at hsw
    have hl := (h.q.page_mem u.b q).1 (by rw [hgl]; exact hq')
    refine ⟨hlw q ⟨by simpa using hsw.1.2, hsw.1.1⟩ (by rw [hl]; simp), ?_⟩
    intro hsp
    rw [hsp] at hsw
    have h1 : s.status q ≠ .insert := by simpa using hsw.2
    have h2 : s.status q ≠ .nonExclusive := by simpa using hsw.1.2
    obtain ⟨b', k', _, h3, _⟩ := h.q.sleeper q (by rw [hl]; simp)
    have h4 : s.status q ≠ .wakeUp := by rw [h3]; exact status_ne_wakeUp k'
    cases hss : s.status q <;> simp_all
  · intro q h1 h2 h3
    rcases hpl q h1 h3 with h4 | h4
    · obtain ⟨e, he1, he2⟩ := hu.woken (hu.oldWoken (List.ne_nil_of_mem h4))
      refine ⟨e, (hwake e).2 he1, hlw e he2 ?_⟩
      rw [(h.q.wake_mem p e).1 he1]; simp
    · exact ⟨q, (hwake q).2 h4, h2⟩
  · rw [hs]
    show ((upd s.word u.b (unlWord u.s u.newTail)) u.b).locked = false
    rw [upd_same]; rfl

/-- Backend `q` is going to look at the state word of page `b` again in order to lock
the page: it runs, or it was told to wake up, or an unlocker is about to tell it. -/
def WillRetry (s : St) (b q : Nat) : Prop :=
  ∃ k : Kind, k.locks = true ∧
    (s.pc q = .start b k ∨ (∃ w, s.pc q = .loop b k w) ∨ (∃ w, s.pc q = .casLock b k w) ∨
     (∃ w, s.pc q = .casQueue b k w) ∨
     (s.pc q = .sleep b k ∧ s.inserted q = false ∧
       (s.status q = .wakeUp ∨ ∃ u, ToWake s u q)))

/-- No page is left unlocked with only sleepers on its list: whenever a page is free
and somebody waits on its list for the lock, some backend is going to try for the
lock. -/
theorem C14_no_stall (as : List Act) (b p : Nat)
    (hf : ((run init as).word b).locked = false)
    (hp : InList (run init as) b p) (hl : WantsLock (run init as) p) :
    ∃ q, WillRetry (run init as) b q := by
  obtain ⟨g, h⟩ := reach_good as
  have hb : ¬ BeingUnlocked (run init as) b := by
    rintro ⟨u, hu⟩
    obtain ⟨w, hw⟩ := unlPage_unlocking hu
    have := unl_locked h.lock hw
    rw [hf] at this; cases this
  have hpl := (h.inList hb p).1 hp
  have hloc := (h.q.page_mem b p).1 hpl
  obtain ⟨b', k', h1, h2, h3, _⟩ := h.q.sleeper p (by rw [hloc]; simp)
  obtain ⟨b'', k'', h4, h5, h6⟩ := hl
  rw [h1] at h4; cases h4
  obtain ⟨q, k, hk, hc⟩ := h.ti b hf ⟨p, hpl, by
    rw [h2]; cases k' <;> simp_all [Kind.status, Kind.locks], h6⟩
  refine ⟨q, k, hk, ?_⟩
  rcases hc with ⟨c1, c2, c3⟩ | c | ⟨w, c, _⟩ | ⟨w, c⟩ | ⟨w, c⟩
  · refine .inr (.inr (.inr (.inr ⟨c1, c2, ?_⟩)))
    rcases c3 with c3 | ⟨u, c3, c4⟩
    · exact .inl (h.q.woken q b k c1 c3)
    · exact .inr ⟨u, (h.toWake u q).2 ⟨c3, c4⟩⟩
  · exact .inl c
  · exact .inr (.inl ⟨w, c⟩)
  · exact .inr (.inr (.inl ⟨w, c⟩))
  · exact .inr (.inr (.inr (.inl ⟨w, c⟩)))

/-- Readers and change waiters do not sleep on a list without reason: a reader only
while reads are blocked (so never on an unlocked page), a change waiter only while the
change count is the one it waits to pass. -/
theorem C14_reader (as : List Act) (b p : Nat) (hp : InList (run init as) b p)
    (hb : ¬ BeingUnlocked (run init as) b) :
    ((run init as).pc p = .sleep b .read → ((run init as).word b).noRead = true ∧
      ((run init as).word b).locked = true) ∧
    (∀ old, (run init as).pc p = .sleep b (.change old) →
      ((run init as).word b).cc = old) := by
  obtain ⟨g, h⟩ := reach_good as
  have hpl := (h.inList hb p).1 hp
  constructor
  · intro hr
    rcases h.rd b p .read hpl hr with h1 | h1
    · cases h1
    · refine ⟨h1, ?_⟩
      cases hlk : ((run init as).word b).locked with
      | true => rfl
      | false =>
        have h1 : ((run init as).word b).noRead = true := h1
        rw [h.lock.quiet b hlk] at h1; cases h1
  · intro old hr
    rcases h.rd b p (.change old) hpl hr with h1 | h1
    · cases h1
    · simpa [Kind.mustWait] using h1

/-- Three waiters with different purposes on the list of page 0 when backend 1, which
has blocked reads, unlocks it: lock (2), read (3), lock (4).  The reader and the
newest lock waiter are woken, the other stays. -/
def exUnlock : List Act :=
  [.tryLock 1 0 7, .block 1 0,
   .call 2 0 .lock, .go 2 0, .go 2 0, .go 2 7,
   .call 3 0 .read, .go 3 0, .go 3 0, .go 3 7,
   .call 4 0 .lock, .go 4 0, .go 4 0, .go 4 7,
   .unlock 1 0 false, .go 1 0, .go 1 0, .go 1 0, .go 1 0, .go 1 0]

def exUnlU : Unl :=
  { b := 0, split := false, s := ⟨some 4, true, true, 0, 7⟩, cur := none, prev := some 2,
    newTail := some 2, excl := some 4, exclPrev := none, wakeHead := some 4, prevTail := none,
    patch := none, exclWoken := true }

example : (run init exUnlock).pc 1 = .ucas exUnlU ∧ (run init exUnlock).word 0 = exUnlU.s :=
  ⟨by rfl, by decide⟩

example : Waits (run init exUnlock) 0 2 ∧ Waits (run init exUnlock) 0 3 ∧
    Waits (run init exUnlock) 0 4 :=
  ⟨⟨_, rfl, by decide⟩, ⟨_, rfl, by decide⟩, ⟨_, rfl, by decide⟩⟩

example : InList (run init (exUnlock ++ [.go 1 0])) 0 2 ∧
    ToWake (run init (exUnlock ++ [.go 1 0])) 1 3 ∧
    ToWake (run init (exUnlock ++ [.go 1 0])) 1 4 ∧
    ((run init (exUnlock ++ [.go 1 0])).word 0).locked = false :=
  ⟨⟨1, by decide⟩, ⟨0, some 4, 2, .inl rfl, by decide⟩, ⟨0, some 4, 1, .inl rfl, by decide⟩,
    by decide⟩

/-! ## C15: unlocked reads are not torn

English claim: a reader which copies a page without locking it and then validates the
page state accepts the copy only if no writer changed the page while it was being
copied. -/

/-- Full statement of C15: an accepted copy shows, in all the words copied, the page as
it is at the moment of the acceptance, and the page was changed by nobody since the
copy began. -/
def C15_statement : Prop :=
  ∀ (as : List Act) (p b : Nat) (s1 : Word) (v0 : Nat) (img : Nat → Option Nat),
    (run init as).pc p = .rd b s1 v0 img → copyValid (run init as) b s1 = true →
    (run init as).ver b = v0 ∧ ∀ j v, img j = some v → (run init as).mem b j = v

/-- C15 as long as the 32-bit change count has not gone through all its values while
the copy was made. -/
theorem C15_partial (as : List Act) (p b : Nat) (s1 : Word) (v0 : Nat) (img : Nat → Option Nat)
    (hp : (run init as).pc p = .rd b s1 v0 img) (hv : copyValid (run init as) b s1 = true)
    (hwrap : (run init as).ver b < v0 + 4294967296) :
    (run init as).ver b = v0 ∧ ∀ j v, img j = some v → (run init as).mem b j = v := by
  obtain ⟨h1, h2, h3⟩ := reach_rdInv as p b s1 v0 img hp
  have h4 := (reach_lockInv as).ver b
  simp only [copyValid, Bool.and_eq_true, Bool.not_eq_true', beq_iff_eq] at hv
  have he : (run init as).ver b = v0 := by
    have := hv.1
    omega
  exact ⟨he, fun j v hj => (h3 he hv.2 j v hj).symm⟩

/-- `ver` counts what it should: it is raised by the unlock of a page whose reads were
blocked, and by nothing else; contents change only in between (`C13_writer`). -/
theorem C15_version (as : List Act) (a : Act) (b : Nat)
    (h : (step (run init as) a).ver b ≠ (run init as).ver b) :
    (step (run init as) a).ver b = (run init as).ver b + 1 ∧
    ((run init as).word b).noRead = true ∧ ((step (run init as) a).word b).noRead = false := by
  generalize run init as = s at h
  cases a with
  | go p ch =>
    have key : ∀ u, s.pc p = .ucas u → s.word u.b = u.s → b = u.b ∧ u.s.noRead = true →
        (step s (.go p ch)).ver b = s.ver b + 1 ∧
        (s.word b).noRead = true ∧ ((step s (.go p ch)).word b).noRead = false := by
      intro u hp hw ⟨hb, hn⟩
      subst hb
      have : step s (.go p ch) = stepUcas s p u := by
        show stepGo s p ch = _; unfold stepGo; rw [hp]
      rw [this]; unfold stepUcas; rw [if_pos hw]
      dsimp only
      rw [upd_same, upd_same, if_pos hn, hw]
      exact ⟨rfl, hn, rfl⟩
    cases hpc : s.pc p with
    | ucas u =>
      have hs : step s (.go p ch) = stepUcas s p u := by
        show stepGo s p ch = _; unfold stepGo; rw [hpc]
      by_cases hw : s.word u.b = u.s
      · apply key u hpc hw
        rw [hs] at h; unfold stepUcas at h; rw [if_pos hw] at h
        dsimp only at h
        by_cases hb : b = u.b
        · refine ⟨hb, ?_⟩
          subst hb
          rw [upd_same] at h
          cases hn : u.s.noRead with
          | true => rfl
          | false => rw [if_neg (by rw [hn]; simp)] at h; exact absurd rfl h
        · rw [upd_ne _ _ hb] at h; exact absurd rfl h
      · exfalso; apply h
        rw [hs]; unfold stepUcas; rw [if_neg hw]; rfl
    | _ =>
      exfalso; apply h
      show (stepGo s p ch).ver b = s.ver b
      unfold stepGo stepLoop stepCasLock stepCasQueue stepSleep stepWalk walkNode
      rw [hpc]
      repeat' split
      all_goals first | rfl | (rename_i hx; cases hx)
  | block p c =>
    exfalso; apply h
    rw [step]; unfold stepBlock
    repeat' split
    all_goals rfl
  | _ =>
    exfalso; apply h
    rw [step]
    repeat' split
    all_goals rfl

/-- A reader that copies one word of page 0, twice. -/
def exRead : List Act :=
  changes 2 ++ [.read 2 0, .go 2 0, .tryLock 1 0 7, .go 2 1]

example : copyValid (run init exRead) 0 ⟨none, false, false, 2, 7⟩ = true ∧
    (run init exRead).ver 0 = 2 := by decide

/-- With 2^32 changes during one copy the reader accepts a copy that mixes two states
of the page: `C15_statement` does not hold without a bound. -/
theorem C15_violated : ¬ C15_statement := by
  intro hC
  have hc0 : Calm (run init [.read 2 0, .go 2 0]) 0 := ⟨rfl, rfl, rfl⟩
  obtain ⟨h1, h2, h3⟩ := calm_changes 4294967296 (run init [.read 2 0, .go 2 0]) 0 hc0
  have hpc : (run init ([.read 2 0, .go 2 0] ++ changes 4294967296)).pc 2 =
      .rd 0 ⟨none, false, false, 0, 7⟩ 0 (upd (fun _ => none) 0 (some 0)) := by
    rw [run_append, h3 2 (by decide)]; rfl
  have hv : copyValid (run init ([.read 2 0, .go 2 0] ++ changes 4294967296)) 0
      ⟨none, false, false, 0, 7⟩ = true := by
    rw [run_append]
    simp only [copyValid, h1.word]
    rfl
  have := (hC _ 2 0 _ _ _ hpc hv).2 0 0 (upd_same _ _ _)
  rw [run_append, h2 (by decide)] at this
  cases this

/-! ## C37: absorbed wake-ups are handed back

English claim: wake-ups of the process semaphore that a page wait consumes but that
were meant for another wait are raised again before the wait returns: between calls
the semaphore count is what was received less what was used. -/

/-- Full statement of C37. -/
def C37_statement : Prop :=
  ∀ (as : List Act) (p : Nat), (run init as).isIdle p = true →
    (run init as).sem p + (run init as).used p = (run init as).recv p

/-- C37 for every backend whose waits are only lock waits and read waits; the other
backends may do anything. -/
theorem C37_partial (as : List Act) (p : Nat)
    (hc : ∀ a, a ∈ as → (∀ b, a ≠ .call p b .insert) ∧ (∀ b cc, a ≠ .waitChange p b cc))
    (hi : (run init as).isIdle p = true) :
    (run init as).sem p + (run init as).used p = (run init as).recv p := by
  have hu : ∀ a, a ∈ as → (∀ b k, a = .call p b k → k.isCall = true) → a.unfair p = false := by
    intro a ha hk
    obtain ⟨h1, h2⟩ := hc a ha
    cases a with
    | call q b k =>
      simp only [Act.unfair, Bool.and_eq_false_iff]
      by_cases hq : q = p
      · subst hq
        right
        cases k with
        | insert => exact absurd rfl (h1 b)
        | change old => exact absurd (hk b _ rfl) (by simp [Kind.isCall])
        | _ => rfl
      · left; simpa using hq
    | waitChange q b c =>
      simp only [Act.unfair]
      by_cases hq : q = p
      · subst hq; exact absurd rfl (h2 b c)
      · simpa using hq
    | _ => rfl
  -- calls of kind `change` do nothing; drop them from the run
  have drop : ∀ (l : List Act) (s : St), (∀ a, a ∈ l → a ∈ as) → SemEq p s →
      (∀ q, (s.pc q).tested) → SemEq p (run s l) := by
    intro l
    induction l with
    | nil => intro s _ h _; exact h
    | cons a l ih =>
      intro s hm h ht
      refine ih _ (fun x hx => hm x (List.mem_cons_of_mem _ hx)) ?_ (tested_step ht a)
      by_cases hk : ∃ b k, a = .call p b k ∧ k.isCall = false
      · obtain ⟨b, k, rfl, hk⟩ := hk
        rw [step, if_neg (by rw [hk]; simp)]
        exact h
      · refine semEq_step h (ht p) a (hu a (hm a (List.mem_cons_self ..)) ?_)
        intro b k e
        cases hkc : k.isCall with
        | true => rfl
        | false => exact absurd ⟨b, k, e, hkc⟩ hk
  have h := (drop as init (fun _ h => h) (init_semEq p) init_tested).1
  rw [isIdle_iff hi] at h
  exact h

/-- No page wait raises the semaphore more often than it was raised by others. -/
theorem C37_no_excess (as : List Act) (p : Nat) :
    (run init as).sem p + (run init as).used p ≤ (run init as).recv p := by
  have := run_semLe as init init_semLe p
  omega

/-- Backend 2 queues on page 0, gets a wake-up meant for another wait, is then woken
by the unlock and takes the lock; the first wake-up is there again. -/
def exAbsorb : List Act :=
  [.tryLock 1 0 7, .call 2 0 .lock, .go 2 0, .go 2 0, .go 2 7, .signal 2, .go 2 0,
   .unlock 1 0 false, .go 1 0, .go 1 0, .go 1 0, .go 1 0, .go 1 0, .go 1 0, .go 1 0,
   .go 2 0, .go 2 0, .go 2 0, .go 2 7]

example : (run init exAbsorb).isIdle 2 = true ∧ (run init exAbsorb).holds 2 0 = true ∧
    (run init exAbsorb).recv 2 = 2 ∧ (run init exAbsorb).used 2 = 1 ∧
    (run init exAbsorb).sem 2 = 1 := by decide

/-- The same run with an insert wait that has to queue twice: the wake-up absorbed the
second time is lost, because the loop `while (extraWaits-- > 0)` after the first wait
left -1 in the variable (page_state.c:589). -/
def exLostInsert : List Act :=
  [.tryLock 1 0 7, .call 2 0 .insert, .go 2 0, .go 2 0, .go 2 7,
   .unlock 1 0 false, .go 1 0, .go 1 0, .go 1 0, .go 1 0, .go 1 0, .go 1 0, .go 1 0,
   .tryLock 1 0 7, .go 2 0, .go 2 0, .go 2 0, .go 2 7, .signal 2, .go 2 0,
   .unlock 1 0 false, .go 1 0, .go 1 0, .go 1 0, .go 1 0, .go 1 0, .go 1 0, .go 1 0,
   .go 2 0, .go 2 0, .go 2 0, .go 2 7]

/-- A change wait that queues twice and finds the change count passed when it queues
the third time returns without handing back (page_state.c:694). -/
def exLostChange : List Act :=
  [.tryLock 1 0 7, .waitChange 2 0 0, .go 2 0, .go 2 0, .go 2 7, .signal 2, .go 2 0,
   .unlock 1 0 false, .go 1 0, .go 1 0, .go 1 0, .go 1 0, .go 1 0, .go 1 0, .go 1 0,
   .go 2 0, .tryLock 1 0 7, .block 1 0, .unlock 1 0 false, .go 1 0, .go 1 0, .go 1 0, .go 1 0,
   .go 2 0, .go 2 0]

/-- The statement fails for insert waits. -/
theorem C37_violated_insert : ¬ C37_statement := by
  intro h
  have := h exLostInsert 2 (by decide)
  exact absurd this (by decide)

/-- And for change waits. -/
theorem C37_violated_change : ¬ C37_statement := by
  intro h
  have := h exLostChange 2 (by decide)
  exact absurd this (by decide)

/-! ## C38: a change wait waits for a change

English claim: `page_wait_for_changecount`, called with a page state, returns only
after the change count of the page differs from the one in that state. -/

/-- Full statement of C38: whenever the call for change count `c` has returned, at
some moment of the call the page had another change count. -/
def C38_statement : Prop :=
  ∀ (as bs : List Act) (p b c : Nat), (run init as).isIdle p = true → c < 4294967296 →
    (run init (as ++ .waitChange p b c :: bs)).isIdle p = true →
    ∃ pre suf, bs = pre ++ suf ∧
      ((run init (as ++ .waitChange p b c :: pre)).word b).cc ≠ c

/-- The points of a change wait, and what is known there: either the page has had
another change count or the state read has the old one. -/
def ChangeWait (b c : Nat) : Pc → Prop
  | .start b' k => b' = b ∧ k = .change c
  | .loop b' k w => b' = b ∧ k = .change c ∧ w.cc = c
  | .casQueue b' k _ => b' = b ∧ k = .change c
  | .sleep b' k => b' = b ∧ k = .change c
  | _ => False

theorem changeWait_step {s : St} {p b c : Nat} (h : ChangeWait b c (s.pc p))
    (hcc : (s.word b).cc = c) (a : Act) (hcc' : ((step s a).word b).cc = c) :
    ChangeWait b c ((step s a).pc p) := by
  by_cases hg : ∃ q ch, a = .go q ch
  · obtain ⟨q, ch, rfl⟩ := hg
    show ChangeWait b c ((stepGo s q ch).pc p)
    by_cases hpq : p = q
    · subst hpq
      cases hpc : s.pc p with
      | start b' k =>
        rw [hpc] at h
        obtain ⟨rfl, rfl⟩ := h
        have : (stepGo s p ch).pc p = .loop b' (.change c) (s.word b') := by
          unfold stepGo; rw [hpc]; simp [St.goto, upd_same]
        rw [this]; exact ⟨rfl, rfl, hcc⟩
      | loop b' k w =>
        rw [hpc] at h
        obtain ⟨rfl, rfl, hw⟩ := h
        have : (stepGo s p ch).pc p = .casQueue b' (.change c) w := by
          unfold stepGo; rw [hpc]; simp [stepLoop, Kind.mustWait, hw, upd_same]
        rw [this]; exact ⟨rfl, rfl⟩
      | casQueue b' k w =>
        rw [hpc] at h
        obtain ⟨rfl, rfl⟩ := h
        have : (stepGo s p ch).pc p = .sleep b' (.change c) ∨
            (stepGo s p ch).pc p = .loop b' (.change c) (s.word b') := by
          unfold stepGo; rw [hpc]
          unfold stepCasQueue
          dsimp only
          split
          · left; simp [upd_same]
          · right; simp [St.goto, upd_same]
        rcases this with e | e <;> rw [e]
        · exact ⟨rfl, rfl⟩
        · exact ⟨rfl, rfl, hcc⟩
      | sleep b' k =>
        rw [hpc] at h
        obtain ⟨rfl, rfl⟩ := h
        have : (stepGo s p ch).pc p = .sleep b' (.change c) ∨
            (stepGo s p ch).pc p = .start b' (.change c) := by
          unfold stepGo; rw [hpc]
          unfold stepSleep
          dsimp only
          rw [if_pos hcc]
          repeat' split
          · exact .inl hpc
          · right; simp [St.goto, upd_same]
          · exact .inl hpc
        rcases this with e | e <;> rw [e] <;> exact ⟨rfl, rfl⟩
      | _ => rw [hpc] at h; exact h.elim
    · rw [(other_go s p q ch hpq).1]; exact h
  · rcases plain_step s p a (fun q ch e => hg ⟨q, ch, e⟩) with h1 | h1
    · rw [h1.1]; exact h
    · exfalso
      have h2 := h1.1
      cases hpc : s.pc p <;> rw [hpc] at h h2 <;> first | exact h.elim | cases h2

/-- C38 for change counts below 4096. -/
theorem C38_partial (as bs : List Act) (p b c : Nat) (hi : (run init as).isIdle p = true)
    (hc : c < 4096) (he : (run init (as ++ .waitChange p b c :: bs)).isIdle p = true) :
    ∃ pre suf, bs = pre ++ suf ∧
      ((run init (as ++ .waitChange p b c :: pre)).word b).cc ≠ c := by
  have e : ∀ l, run init (as ++ .waitChange p b c :: l) =
      run (step (run init as) (.waitChange p b c)) l := by
    intro l; rw [run_append]; rfl
  simp only [e] at he ⊢
  have hw : ChangeWait b c ((step (run init as) (.waitChange p b c)).pc p) := by
    rw [step, if_pos hi]
    show ChangeWait b c (upd _ p _ p)
    rw [upd_same]
    exact ⟨rfl, by rw [Nat.mod_eq_of_lt hc]⟩
  generalize step (run init as) (.waitChange p b c) = s at he hw ⊢
  induction bs generalizing s with
  | nil =>
    have : s.pc p = .idle := isIdle_iff he
    rw [this] at hw; exact hw.elim
  | cons a bs ih =>
    by_cases h0 : (s.word b).cc = c
    · by_cases h1 : ((step s a).word b).cc = c
      · obtain ⟨pre, suf, h2, h3⟩ := ih (step s a) he (changeWait_step hw h0 a h1)
        exact ⟨a :: pre, suf, by rw [h2]; rfl, h3⟩
      · exact ⟨[a], bs, rfl, h1⟩
    · exact ⟨[], a :: bs, rfl, h0⟩

/-- Backend 2 waits for change count 3 to pass, sleeps, and is woken by a change. -/
def exChange : List Act :=
  [.go 2 0, .tryLock 1 0 7, .block 1 0, .go 2 0, .go 2 7, .go 2 0, .go 2 0, .go 2 7,
   .unlock 1 0 false, .go 1 0, .go 1 0, .go 1 0, .go 1 0, .go 1 0, .go 1 0, .go 2 0]

example : (run init (changes 3)).isIdle 2 = true ∧
    (run init (changes 3 ++ .waitChange 2 0 3 :: exChange)).isIdle 2 = true ∧
    (run init (changes 3 ++ .waitChange 2 0 3 :: exChange)).used 2 = 1 := by decide

theorem page_at (n : Nat) (hn : n < 4294967296) : ∃ l, (run init l).isIdle 2 = true ∧
    (run init l).word 0 = ⟨none, false, false, n, 7⟩ := by
  obtain ⟨h1, _, h3⟩ := calm_changes n init 0 init_calm
  refine ⟨changes n, ?_, ?_⟩
  · unfold St.isIdle; rw [h3 2 (by decide)]; rfl
  · rw [h1.word, Nat.zero_add, Nat.mod_eq_of_lt hn]

/-- With change count 4096 the call returns at once: the parameter `state` is declared
`uint32` and loses all but 12 bits of the change count, so `relock_page` spins. -/
theorem C38_violated : ¬ C38_statement := by
  intro h
  obtain ⟨l, hi, hw⟩ := page_at 4096 (by decide)
  have key : ∀ s : St, s.isIdle 2 = true → s.word 0 = ⟨none, false, false, 4096, 7⟩ →
      (run s [.waitChange 2 0 4096, .go 2 0, .go 2 0]).isIdle 2 = true ∧
      (run s [.waitChange 2 0 4096]).word 0 = s.word 0 ∧
      (run s [.waitChange 2 0 4096, .go 2 0]).word 0 = s.word 0 ∧
      (run s [.waitChange 2 0 4096, .go 2 0, .go 2 0]).word 0 = s.word 0 := by
    intro s hi hw
    have h1 := isIdle_iff hi
    simp [run, h1, step, stepGo, upd_same, St.goto, stepLoop, Kind.mustWait, hw, St.isIdle]
  obtain ⟨k1, k2, k3, k4⟩ := key _ hi hw
  obtain ⟨pre, suf, hb, hn⟩ := h l [.go 2 0, .go 2 0] 2 0 4096 hi (by decide)
    (by rw [run_append]; exact k1)
  apply hn
  rw [run_append]
  have : pre = [] ∨ pre = [.go 2 0] ∨ pre = [.go 2 0, .go 2 0] := by
    match pre, hb with
    | [], _ => exact .inl rfl
    | [x], hb =>
      simp only [List.cons_append, List.cons.injEq] at hb
      right; left; rw [← hb.1]
    | [x, y], hb =>
      simp only [List.cons_append, List.cons.injEq] at hb
      right; right; rw [← hb.1, ← hb.2.1]
    | x :: y :: z :: l, hb => simp at hb
  rcases this with e | e | e <;> rw [e]
  · rw [k2, hw]
  · rw [k3, hw]
  · rw [k4, hw]

end Verif.PageState
