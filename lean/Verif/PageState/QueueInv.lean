import Verif.PageState.QueueAll

/-!
# The invariant holds in every reachable state
-/

namespace Verif.PageState

section
variable {s t : St} {g g' : Ghost}

/-- A sleeper that was not woken consumes one count, or blocks. -/
theorem good_sleep (h : Good s g) (p b : Nat) (k : Kind) (hpc : s.pc p = .sleep b k)
    (hl : LockInv (stepSleep s p b k)) (ht : ∀ q, ((stepSleep s p b k).pc q).tested) :
    Good (stepSleep s p b k) g := by
  by_cases h0 : s.sem p = 0
  · have : stepSleep s p b k = s := by simp [stepSleep, h0]
    rw [this]; exact h
  by_cases hw : s.status p = .wakeUp
  · -- the sleeper leaves
    have hloc : g.loc p = .none := by
      apply Decidable.byContradiction
      intro hc
      obtain ⟨b', k', h1, h2, _⟩ := h.q.sleeper p hc
      rw [hw] at h2
      exact status_ne_wakeUp k' h2.symm
    obtain ⟨hwp, hup⟩ := h.q.w_nil (.inr ⟨b, k, hpc⟩)
    have hword : (stepSleep s p b k).word = s.word := by
      unfold stepSleep; rw [if_neg h0]; dsimp only; rw [if_pos hw]
      cases k <;> dsimp only [St.goto, St.repost] <;> (try split) <;> rfl
    have hpcs : (stepSleep s p b k).pc p = .start b k ∨
        (stepSleep s p b k).pc p = .idle ∧ (k.locks = true → s.inserted p = true) := by
      unfold stepSleep; rw [if_neg h0]; dsimp only; rw [if_pos hw]
      cases k <;> dsimp only [St.goto, St.repost] <;> (try split) <;> simp_all [upd_same, Kind.locks]
    have hpl : ((stepSleep s p b k).pc p).plain := by
      rcases hpcs with h1 | ⟨h1, _⟩ <;> rw [h1] <;> trivial
    have hin : ∀ q, q ≠ p → (stepSleep s p b k).inserted q = s.inserted q := by
      intro q hq
      unfold stepSleep; rw [if_neg h0]; dsimp only; rw [if_pos hw]
      cases k <;> dsimp only [St.goto, St.repost] <;> (try split) <;> simp_all [upd_ne _ _ hq]
    have hinp : (stepSleep s p b k).inserted p = false := by
      have hi : k ≠ .insert → s.inserted p = false := by
        intro hk
        cases hi : s.inserted p with
        | false => rfl
        | true =>
          obtain ⟨b', hb'⟩ := h.q.ins p hi
          rw [hpc] at hb'; cases hb'; exact absurd rfl hk
      unfold stepSleep; rw [if_neg h0]; dsimp only; rw [if_pos hw]
      cases k <;> dsimp only [St.goto, St.repost] <;> (try split) <;> simp_all [upd_same]
    have hsame : ∀ q, q ≠ p → Same s (stepSleep s p b k) q ∧ (stepSleep s p b k).pc q = s.pc q := by
      intro q hq
      refine ⟨⟨?_, ?_, hin q hq⟩, ?_⟩ <;>
      · unfold stepSleep; rw [if_neg h0]; dsimp only; rw [if_pos hw]
        cases k <;> dsimp only [St.goto, St.repost] <;> (try split) <;> simp_all [upd_ne _ _ hq]
    have hsem : ∀ q, q ≠ p → (stepSleep s p b k).sem q = s.sem q := by
      intro q hq
      unfold stepSleep; rw [if_neg h0]; dsimp only; rw [if_pos hw]
      cases k <;> dsimp only [St.goto, St.repost] <;> (try split) <;> simp_all [upd_ne _ _ hq]
    obtain ⟨pg1, pg2, pg3, pg4, pg5⟩ := plain_facts hpl
    refine ⟨hl, ht, ?_, ?_, ?_, ?_⟩
    · refine h.q.frame1 p hloc hwp hup hpl hinp ?_ hsame (fun c => by rw [hword])
      intro b' k' w' hc
      rcases hpcs with h1 | ⟨h1, _⟩ <;> rw [h1] at hc <;> cases hc
    · refine h.ti.step ?_
      intro c hc
      rw [hword] at hc
      refine ⟨hc, ?_, ?_⟩
      · intro x hx hx2
        have hxp : x ≠ p := by
          intro hxp; subst hxp
          rw [h.q.page_mem, hloc] at hx; cases hx
        simp only [lockWaiter, (hsame x hxp).1.2.1, (hsame x hxp).1.2.2] at hx2
        exact ⟨hx, hx2⟩
      · refine tok_frame h.q p ?_ ?_ ?_ ?_ ?_ c ?_
        · exact fun q hq => (hsame q hq).2
        · exact fun _ _ h => h
        · exact fun _ _ => rfl
        · intro q _ hi
          by_cases hq : q = p
          · subst hq; exact hinp
          · rw [hin q hq]; exact hi
        · intro q hq'; rw [hwp] at hq'; cases hq'
        · rintro ⟨k', hk', ⟨h1, h2, _⟩ | h1 | ⟨w', h1, _⟩ | ⟨w', h1⟩ | ⟨w', h1⟩⟩ <;>
            rw [hpc] at h1 <;> cases h1
          rcases hpcs with h3 | ⟨_, h3⟩
          · exact tok_start hk' h3
          · rw [h3 hk'] at h2; cases h2
    · refine h.rd.step ?_
      intro c x k' hx hxs
      have hxp : x ≠ p := by
        intro hxp; subst hxp; exact pg1 _ _ hxs
      rw [hword]
      exact .inl ⟨hx, by rw [← (hsame x hxp).2]; exact hxs, .inr⟩
    · intro x c k' hx hsx
      have hxp : x ≠ p := by
        intro hxp; subst hxp; exact pg1 _ _ hx
      rw [(hsame x hxp).2] at hx
      rw [(hsame x hxp).1.2.1] at hsx
      rcases h.wk x c k' hx hsx with h1 | ⟨u, b', nx, h1⟩
      · left; rw [hsem x hxp]; exact h1
      · right
        have hup : u ≠ p := by
          intro hup; subst hup; rw [hpc] at h1; cases h1
        exact ⟨u, b', nx, by rw [(hsame u hup).2]; exact h1⟩
  · have hs : stepSleep s p b k = { s with
        sem := upd s.sem p (s.sem p - 1), extra := upd s.extra p (s.extra p + 1) } := by
      simp [stepSleep, h0, hw]
    rw [hs] at hl ht ⊢
    refine h.idle hl rfl rfl rfl rfl (fun _ => rfl) (fun _ => id) (fun _ _ => .inr) ?_
    intro q b' k' _ hq
    have hqp : q ≠ p := by
      intro hqp; subst hqp; exact hw hq
    dsimp only
    rw [upd_ne _ _ hqp]
    exact Nat.le_refl _

theorem unl_locked (h : LockInv s) {p b : Nat} {w : Option Word}
    (hu : (s.pc p).unlocking = some (b, w)) : (s.word b).locked = true := by
  obtain ⟨v, hv⟩ := (holds_iff s p b).1 (h.unl p b w hu).1
  have := h.held_word p _ hv
  rw [← this.2.1]; exact this.1

theorem good_uread (h : Good s g) (p b : Nat) (sp : Bool) (hpc : s.pc p = .uread b sp)
    (hl : LockInv (s.goto p (.walk (unlStart b sp (s.word b) none none none false))))
    (ht : ∀ q, ((s.goto p (.walk (unlStart b sp (s.word b) none none none false))).pc q).tested) :
    ∃ g', Good (s.goto p (.walk (unlStart b sp (s.word b) none none none false))) g' := by
  refine ⟨_, h.unl p b hl ht (qInv_uread h.q h.lock p b sp hpc) ?_ ?_ ?_ rfl rfl rfl ?_ rfl
    (unl_locked h.lock (w := none) (by rw [hpc]; rfl)) ?_ ?_ ?_ ?_⟩
  · intro c; apply not_tok_of; intro k _; rw [hpc]; simp
  · intro c k; simp [St.goto, upd_same]
  · intro q hq; exact upd_ne _ _ hq
  · rw [hpc]; simp [Pc.waking]
  · exact fun _ h => h
  · exact fun _ _ => rfl
  · intro c hc; simp [Ghost.list, upd_ne _ _ hc]
  · intro x
    simp only [mem_list_iff, upd_same]
    obtain ⟨f1, f2, f3, f4⟩ := h.q.free b (by
      intro u hu
      have := h.lock.unl_unique (p := p) (w := none) (by rw [hpc]; rfl) hu
      rw [← this, hpc] at hu; cases hu)
    rw [f2, f3, f4]; simp

theorem stepWalk_frame (p : Nat) (u : Unl) :
    (stepWalk s p u).status = s.status ∧ (stepWalk s p u).inserted = s.inserted ∧
    (stepWalk s p u).sem = s.sem ∧ (stepWalk s p u).word = s.word ∧
    (∀ q, q ≠ p → (stepWalk s p u).pc q = s.pc q) ∧
    (∀ b k, (stepWalk s p u).pc p ≠ .sleep b k) := by
  unfold stepWalk
  split
  · refine ⟨rfl, rfl, rfl, rfl, fun q hq => upd_ne _ _ hq, ?_⟩
    intro b k; simp [upd_same]
  · split
    · refine ⟨rfl, rfl, rfl, rfl, fun q hq => upd_ne _ _ hq, ?_⟩
      intro b k; simp [St.goto, upd_same]
    · unfold walkNode
      split
      · refine ⟨rfl, rfl, rfl, rfl, fun q hq => upd_ne _ _ hq, ?_⟩
        intro b k; simp [upd_same]
      · refine ⟨rfl, rfl, rfl, rfl, fun q hq => upd_ne _ _ hq, ?_⟩
        intro b k; simp [St.goto, upd_same]

theorem good_walk (h : Good s g) (p : Nat) (u : Unl) (hpc : s.pc p = .walk u)
    (hl : LockInv (stepWalk s p u)) (ht : ∀ q, ((stepWalk s p u).pc q).tested) :
    ∃ g', Good (stepWalk s p u) g' := by
  obtain ⟨g', hq, hg⟩ := qInv_walk h.q h.lock p u hpc
  obtain ⟨f1, f2, f3, f4, f5, f6⟩ := stepWalk_frame (s := s) p u
  refine ⟨g', h.unl p u.b hl ht hq ?_ f6 f5 f1 f2 f3 ?_ f4
    (unl_locked h.lock (w := some u.s) (by rw [hpc]; rfl)) hg.none hg.w hg.list hg.sub⟩
  · intro c; apply not_tok_of; intro k _; rw [hpc]; simp
  · rw [hpc]; simp [Pc.waking]

theorem good_ucas (h : Good s g) (p : Nat) (u : Unl) (hpc : s.pc p = .ucas u)
    (hl : LockInv (stepUcas s p u)) (ht : ∀ q, ((stepUcas s p u).pc q).tested) :
    ∃ g', Good (stepUcas s p u) g' := by
  obtain ⟨hq, hn⟩ := qInv_ucas h.q h.lock p u hpc
  have hnt : ∀ c, ¬ tok s g c p := by
    intro c; apply not_tok_of; intro k _; rw [hpc]; simp
  have hu : Ucas s g p u := by have := h.q.unl p; rw [hpc] at this; exact this
  by_cases hw : s.word u.b = u.s
  · have hn := hn hw
    have hs : stepUcas s p u = { s with
      word := upd s.word u.b (unlWord u.s u.newTail),
      ver := upd s.ver u.b (if u.s.noRead then s.ver u.b + 1 else s.ver u.b),
      held := upd s.held p ((s.held p).filter (fun e => e.1 != u.b)),
      pc := upd s.pc p (.wake u.b u.wakeHead) } := by
      unfold stepUcas; rw [if_pos hw]
    rw [if_pos hw] at hq
    rw [hs] at hl ht hq ⊢
    have hlistb : ∀ x, x ∈ Ghost.list { g with
        n := upd g.n u.b (g.o u.b), o := upd g.o u.b [] } u.b → x ∈ g.o u.b := by
      intro x
      simp [mem_list_iff, upd_same, hu.k_nil, hu.r_nil]
    have hlistc : ∀ c, c ≠ u.b → Ghost.list { g with
        n := upd g.n u.b (g.o u.b), o := upd g.o u.b [] } c = g.list c := by
      intro c hc; simp [Ghost.list, upd_ne _ _ hc]
    have htf : ∀ c q, tok s g c q → tok { s with
      word := upd s.word u.b (unlWord u.s u.newTail),
      ver := upd s.ver u.b (if u.s.noRead then s.ver u.b + 1 else s.ver u.b),
      held := upd s.held p ((s.held p).filter (fun e => e.1 != u.b)),
      pc := upd s.pc p (.wake u.b u.wakeHead) } { g with
        n := upd g.n u.b (g.o u.b), o := upd g.o u.b [] } c q := by
      intro c
      refine tok_frame h.q p ?_ ?_ ?_ ?_ ?_ c ?_
      · exact fun q hq => upd_ne _ _ hq
      · exact fun _ _ h => h
      · exact fun _ _ => rfl
      · exact fun _ _ h => h
      · intro q _ hk; rw [hpc] at hk; exact absurd hk (by simp [Pc.waking])
      · exact fun hk => absurd hk (hnt c)
    refine ⟨_, hl, ht, hq, ?_, ?_, ?_⟩
    · intro c hc hx
      by_cases hcb : c = u.b
      · subst hcb
        obtain ⟨x, hx, _⟩ := hx
        have hx := hlistb x hx
        obtain ⟨e, he1, he2⟩ := hu.woken (hu.oldWoken (List.ne_nil_of_mem hx))
        have hle := (h.q.wake_mem p e).1 he1
        obtain ⟨b', k', h1, h2, h3, h4⟩ := h.q.sleeper e (by rw [hle]; simp)
        have hb' := h4 p hle
        rw [hpc] at hb'
        have hb' : u.b = b' := by simpa [Pc.actPage] using hb'
        subst hb'
        have hep : e ≠ p := by
          intro hep; subst hep; rw [hpc] at h1; cases h1
        refine ⟨e, k', ?_, .inl ⟨?_, he2.2, .inr ⟨p, he1, ?_⟩⟩⟩
        · have := he2.1
          rw [h2] at this
          cases k' <;> simp_all [Kind.status, Kind.locks]
        · dsimp only; rw [upd_ne _ _ hep]; exact h1
        · dsimp only; rw [upd_same]; trivial
      · dsimp only at hc
        rw [upd_ne _ _ hcb] at hc
        rw [hlistc c hcb] at hx
        obtain ⟨q, hq⟩ := h.ti c hc hx
        exact ⟨q, htf c q hq⟩
    · intro c x k hx hxs
      have hxp : x ≠ p := by
        intro hxp; subst hxp; dsimp only at hxs; rw [upd_same] at hxs; cases hxs
      dsimp only at hxs ⊢
      rw [upd_ne _ _ hxp] at hxs
      by_cases hcb : c = u.b
      · subst hcb
        have hx := hlistb x hx
        left
        have hst := hu.stay x hx
        have hlx := (h.q.page_mem u.b x).1 (mem_list_iff.2 (.inr (.inr (.inr hx))))
        obtain ⟨b', k', h1, h2, _⟩ := h.q.sleeper x (by rw [hlx]; simp)
        rw [h1] at hxs; cases hxs
        simp only [shouldWake, Bool.or_eq_false_iff] at hst
        have := hst.1.2
        rw [h2] at this
        cases k <;> simp_all [Kind.status, Kind.locks]
      · rw [hlistc c hcb] at hx
        rw [upd_ne _ _ hcb]
        exact h.rd c x k hx hxs
    · intro x c k hx hst
      dsimp only at hx hst ⊢
      have hxp : x ≠ p := by
        intro hxp; subst hxp; rw [upd_same] at hx; cases hx
      rw [upd_ne _ _ hxp] at hx
      rcases h.wk x c k hx hst with h1 | ⟨v, b', nx, h1⟩
      · exact .inl h1
      · right
        refine ⟨v, b', nx, ?_⟩
        have hvp : v ≠ p := by
          intro hvp; subst hvp; rw [hpc] at h1; cases h1
        rw [upd_ne _ _ hvp]; exact h1
  · have hs : stepUcas s p u = s.goto p (.walk (unlStart u.b u.split (s.word u.b) u.wakeHead
        u.s.tail u.newTail u.exclWoken)) := by
      unfold stepUcas; rw [if_neg hw]
    rw [if_neg hw] at hq
    rw [hs] at hl ht hq ⊢
    refine ⟨_, h.unl p u.b hl ht hq hnt ?_ ?_ rfl rfl rfl ?_ rfl
      (unl_locked h.lock (w := some u.s) (by rw [hpc]; rfl)) ?_ ?_ ?_ ?_⟩
    · intro c k; simp [St.goto, upd_same]
    · intro q hq; exact upd_ne _ _ hq
    · rw [hpc]; simp [Pc.waking]
    · exact fun _ h => h
    · exact fun _ _ => rfl
    · intro c hc; simp [Ghost.list, upd_ne _ _ hc]
    · intro x
      simp only [mem_list_iff, upd_same, hu.k_nil, hu.r_nil]
      simp

end

section
variable {s t : St} {g g' : Ghost}

/-- The head of the wake list is told. -/
theorem qInv_wake (h : QInv s g) (p b q : Nat) (l : List Nat) (hpc : s.pc p = .wake b (some q))
    (hw : g.w p = q :: l) :
    QInv { s with status := upd s.status q .wakeUp, pc := upd s.pc p (.post b q (s.next q)) }
      { g with w := upd g.w p l, loc := upd g.loc q .none } := by
  have hlq : g.loc q = .wake p := (h.wake_mem p q).1 (by rw [hw]; simp)
  have hch : Chain s.next (some q) (g.w p) none := by
    have := h.unl p; rw [hpc] at this; exact this
  rw [hw] at hch
  have hnd := h.wake_nodup p
  rw [hw] at hnd
  have hqp : q ≠ p := by
    intro hqp; subst hqp
    obtain ⟨b', k', h1, _⟩ := h.sleeper q (by rw [hlq]; simp)
    rw [hpc] at h1; cases h1
  have hql : ∀ c, q ∉ g.list c := by
    intro c hc; rw [h.page_mem, hlq] at hc; cases hc
  have hupc : ∀ u, (upd s.pc p (Pc.post b q (s.next q)) u).unlPage = (s.pc u).unlPage ∧
      (upd s.pc p (Pc.post b q (s.next q)) u).actPage = (s.pc u).actPage := by
    intro u
    by_cases hu : u = p
    · subst hu; rw [upd_same, hpc]; exact ⟨rfl, rfl⟩
    · rw [upd_ne _ _ hu]; exact ⟨rfl, rfl⟩
  constructor
  · intro c x
    have : Ghost.list { g with w := upd g.w p l, loc := upd g.loc q .none } c = g.list c := rfl
    rw [this]
    dsimp only
    by_cases hx : x = q
    · subst hx; rw [upd_same]; simp [hql c]
    · rw [upd_ne _ _ hx]; exact h.page_mem c x
  · exact h.page_nodup
  · intro u x
    dsimp only
    by_cases hx : x = q
    · subst hx
      rw [upd_same]
      by_cases hu : u = p
      · subst hu; rw [upd_same]; simp [(List.nodup_cons.1 hnd).1]
      · rw [upd_ne _ _ hu, h.wake_mem, hlq]; simp [Ne.symm hu]
    · rw [upd_ne _ _ hx]
      by_cases hu : u = p
      · subst hu; rw [upd_same, ← h.wake_mem, hw]; simp [hx]
      · rw [upd_ne _ _ hu, h.wake_mem]
  · intro u
    dsimp only
    by_cases hu : u = p
    · subst hu; rw [upd_same]; exact (List.nodup_cons.1 hnd).2
    · rw [upd_ne _ _ hu]; exact h.wake_nodup u
  · intro x hx
    dsimp only at hx ⊢
    by_cases hxq : x = q
    · subst hxq; rw [upd_same] at hx; exact absurd rfl hx
    · simp only [upd_ne _ _ hxq] at hx ⊢
      obtain ⟨b', k', h1, h2, h3, h4⟩ := h.sleeper x hx
      have hxp : x ≠ p := by
        intro hxp; subst hxp; rw [hpc] at h1; cases h1
      refine ⟨b', k', by rw [upd_ne _ _ hxp]; exact h1, h2, h3, ?_⟩
      intro u hu; rw [(hupc u).2]; exact h4 u hu
  · intro x b' k' hx hl
    dsimp only at hx hl ⊢
    by_cases hxq : x = q
    · subst hxq; rw [upd_same]
    · rw [upd_ne _ _ hxq] at hl ⊢
      have hxp : x ≠ p := by
        intro hxp; subst hxp; rw [upd_same] at hx; cases hx
      rw [upd_ne _ _ hxp] at hx
      exact h.woken x b' k' hx hl
  · intro x hx
    obtain ⟨b', hb'⟩ := h.ins x hx
    have hxp : x ≠ p := by
      intro hxp; subst hxp; rw [hpc] at hb'; cases hb'
    exact ⟨b', by dsimp only; rw [upd_ne _ _ hxp]; exact hb'⟩
  · intro x b' k' w hx
    dsimp only at hx ⊢
    have hxp : x ≠ p := by
      intro hxp; subst hxp; rw [upd_same] at hx; cases hx
    rw [upd_ne _ _ hxp] at hx
    have hxq : x ≠ q := by
      intro hxq; subst hxq
      obtain ⟨b'', k'', h1, _⟩ := h.sleeper x (by rw [hlq]; simp)
      rw [hx] at h1; cases h1
    rw [upd_ne _ _ hxq]
    exact h.casq x b' k' w hx
  · intro c hc
    exact h.free c (fun u => by rw [← (hupc u).1]; exact hc u)
  · intro u
    dsimp only
    by_cases hu : u = p
    · subst hu; rw [upd_same]
      show Chain _ _ _ _
      dsimp only
      rw [upd_same]; exact hch.2
    · rw [upd_ne _ _ hu]
      refine uInv_frame (h.unl u) (upd_ne _ _ hu) ?_ ?_
      · intro x hx
        have hxq : x ≠ q := by
          intro hxq; subst hxq
          rw [h.wake_mem, hlq] at hx; cases hx; exact hu rfl
        exact ⟨rfl, upd_ne _ _ hxq, rfl⟩
      · intro c _
        refine ⟨rfl, rfl, rfl, rfl, rfl, ?_⟩
        intro x hx
        have hxq : x ≠ q := by
          intro hxq; subst hxq; exact hql c hx
        exact ⟨rfl, upd_ne _ _ hxq, rfl⟩
  · intro x
    dsimp only
    by_cases hxp : x = p
    · subst hxp; rw [upd_same]; simp
    · rw [upd_ne _ _ hxp]; exact h.nocrash x

theorem good_wake (h : Good s g) (p b q : Nat) (hpc : s.pc p = .wake b (some q))
    (hl : LockInv { s with
      status := upd s.status q .wakeUp, pc := upd s.pc p (.post b q (s.next q)) })
    (ht : ∀ x, (upd s.pc p (Pc.post b q (s.next q)) x).tested) :
    ∃ g', Good { s with
      status := upd s.status q .wakeUp, pc := upd s.pc p (.post b q (s.next q)) } g' := by
  have hch : Chain s.next (some q) (g.w p) none := by
    have := h.q.unl p; rw [hpc] at this; exact this
  obtain ⟨l, hw⟩ : ∃ l, g.w p = q :: l := by
    cases hw : g.w p with
    | nil => rw [hw] at hch; cases hch
    | cons a l =>
      rw [hw] at hch
      have : q = a := by have := hch.1; simpa using this
      exact ⟨l, by rw [this]⟩
  have hlq : g.loc q = .wake p := (h.q.wake_mem p q).1 (by rw [hw]; simp)
  have hql : ∀ c, q ∉ g.list c := by
    intro c hc; rw [h.q.page_mem, hlq] at hc; cases hc
  refine ⟨_, hl, ht, qInv_wake h.q p b q l hpc hw, ?_, ?_, ?_⟩
  · refine h.ti.step ?_
    intro c hc
    refine ⟨hc, ?_, ?_⟩
    · intro x hx hx2
      have hx : x ∈ g.list c := hx
      have hxq : x ≠ q := by
        intro hxq; subst hxq; exact hql c hx
      simp only [lockWaiter, upd_ne _ _ hxq] at hx2
      exact ⟨hx, hx2⟩
    · refine tok_frame h.q p ?_ ?_ ?_ ?_ ?_ c ?_
      · exact fun q hq => upd_ne _ _ hq
      · intro x _ hx
        have hxq : x ≠ q := by
          intro hxq; subst hxq; rw [hlq] at hx; cases hx
        dsimp only; rw [upd_ne _ _ hxq]; exact hx
      · exact fun u hu => upd_ne _ _ hu
      · exact fun _ _ h => h
      · intro x hx _
        rw [hw] at hx
        dsimp only
        rcases List.mem_cons.1 hx with h1 | h1
        · subst h1; right; rw [upd_same]
        · left; rw [upd_same, upd_same]; exact ⟨h1, trivial⟩
      · intro hk
        refine absurd hk (not_tok_of ?_)
        intro k _; rw [hpc]; simp
  · refine h.rd.step ?_
    intro c x k hx hxs
    have hxp : x ≠ p := by
      intro hxp; subst hxp; dsimp only at hxs; rw [upd_same] at hxs; cases hxs
    dsimp only at hxs
    rw [upd_ne _ _ hxp] at hxs
    exact .inl ⟨hx, hxs, .inr⟩
  · intro x c k hx hst
    dsimp only at hx hst ⊢
    have hxp : x ≠ p := by
      intro hxp; subst hxp; rw [upd_same] at hx; cases hx
    rw [upd_ne _ _ hxp] at hx
    by_cases hxq : x = q
    · subst hxq; right; exact ⟨p, b, s.next x, upd_same _ _ _⟩
    · rw [upd_ne _ _ hxq] at hst
      rcases h.wk x c k hx hst with h1 | ⟨v, b', nx, h1⟩
      · exact .inl h1
      · right
        refine ⟨v, b', nx, ?_⟩
        have hvp : v ≠ p := by
          intro hvp; subst hvp; rw [hpc] at h1; cases h1
        rw [upd_ne _ _ hvp]; exact h1

/-- The semaphore of the told waiter is raised. -/
theorem qInv_post (h : QInv s g) (p b q : Nat) (nx : Option Nat) (hpc : s.pc p = .post b q nx)
    (hpc' : t.pc = upd s.pc p (.wake b nx)) (hn : t.next = s.next)
    (hst : t.status = s.status) (hin : t.inserted = s.inserted) (hw : t.word = s.word) :
    QInv t g := by
  have hupc : ∀ u, (upd s.pc p (Pc.wake b nx) u).unlPage = (s.pc u).unlPage ∧
      (upd s.pc p (Pc.wake b nx) u).actPage = (s.pc u).actPage := by
    intro u
    by_cases hu : u = p
    · subst hu; rw [upd_same, hpc]; exact ⟨rfl, rfl⟩
    · rw [upd_ne _ _ hu]; exact ⟨rfl, rfl⟩
  constructor
  · exact h.page_mem
  · exact h.page_nodup
  · exact h.wake_mem
  · exact h.wake_nodup
  · intro x hx
    obtain ⟨b', k', h1, h2, h3, h4⟩ := h.sleeper x hx
    have hxp : x ≠ p := by
      intro hxp; subst hxp; rw [hpc] at h1; cases h1
    refine ⟨b', k', by rw [hpc', upd_ne _ _ hxp]; exact h1, by rw [hst]; exact h2, h3, ?_⟩
    intro u hu; rw [hpc', (hupc u).2]; exact h4 u hu
  · intro x b' k' hx hl
    have hxp : x ≠ p := by
      intro hxp; subst hxp; rw [hpc', upd_same] at hx; cases hx
    rw [hpc', upd_ne _ _ hxp] at hx
    rw [hst]; exact h.woken x b' k' hx hl
  · intro x hx
    rw [hin] at hx
    obtain ⟨b', hb'⟩ := h.ins x hx
    have hxp : x ≠ p := by
      intro hxp; subst hxp; rw [hpc] at hb'; cases hb'
    exact ⟨b', by rw [hpc', upd_ne _ _ hxp]; exact hb'⟩
  · intro x b' k' w hx
    have hxp : x ≠ p := by
      intro hxp; subst hxp; rw [hpc', upd_same] at hx; cases hx
    rw [hpc', upd_ne _ _ hxp] at hx
    rw [hn, hst]; exact h.casq x b' k' w hx
  · intro c hc
    rw [hn, hw]
    exact h.free c (fun u => by rw [← (hupc u).1, ← hpc']; exact hc u)
  · intro u
    rw [hpc']
    by_cases hu : u = p
    · subst hu; rw [upd_same]
      show Chain _ _ _ _
      have := h.unl u; rw [hpc] at this; rw [hn]; exact this
    · rw [upd_ne _ _ hu]
      refine uInv_frame (h.unl u) rfl ?_ ?_
      · intro x _; exact ⟨by rw [hn], by rw [hst], by rw [hin]⟩
      · intro c _
        exact ⟨by rw [hw], rfl, rfl, rfl, rfl, fun x _ => ⟨by rw [hn], by rw [hst], by rw [hin]⟩⟩
  · intro x
    rw [hpc']
    by_cases hxp : x = p
    · subst hxp; rw [upd_same]; simp
    · rw [upd_ne _ _ hxp]; exact h.nocrash x

theorem good_post (h : Good s g) (p b q : Nat) (nx : Option Nat) (hpc : s.pc p = .post b q nx)
    (hl : LockInv { s with
      sem := upd s.sem q (s.sem q + 1), recv := upd s.recv q (s.recv q + 1),
      pc := upd s.pc p (.wake b nx) })
    (ht : ∀ x, (upd s.pc p (Pc.wake b nx) x).tested) :
    Good { s with
      sem := upd s.sem q (s.sem q + 1), recv := upd s.recv q (s.recv q + 1),
      pc := upd s.pc p (.wake b nx) } g := by
  refine ⟨hl, ht, qInv_post h.q p b q nx hpc rfl rfl rfl rfl rfl, ?_, ?_, ?_⟩
  · refine h.ti.step ?_
    intro c hc
    refine ⟨hc, fun x hx hx2 => ⟨hx, hx2⟩, ?_⟩
    refine tok_frame h.q p ?_ ?_ ?_ ?_ ?_ c ?_
    · exact fun q hq => upd_ne _ _ hq
    · exact fun _ _ h => h
    · exact fun _ _ => rfl
    · exact fun _ _ h => h
    · intro x hx _
      dsimp only; rw [upd_same]; exact .inl ⟨hx, trivial⟩
    · intro hk
      refine absurd hk (not_tok_of ?_)
      intro k _; rw [hpc]; simp
  · refine h.rd.step ?_
    intro c x k hx hxs
    have hxp : x ≠ p := by
      intro hxp; subst hxp; dsimp only at hxs; rw [upd_same] at hxs; cases hxs
    dsimp only at hxs
    rw [upd_ne _ _ hxp] at hxs
    exact .inl ⟨hx, hxs, .inr⟩
  · intro x c k hx hst
    dsimp only at hx hst ⊢
    have hxp : x ≠ p := by
      intro hxp; subst hxp; rw [upd_same] at hx; cases hx
    rw [upd_ne _ _ hxp] at hx
    by_cases hxq : x = q
    · subst hxq; left; rw [upd_same]; omega
    · rw [upd_ne _ _ hxq]
      rcases h.wk x c k hx hst with h1 | ⟨v, b', nx', h1⟩
      · exact .inl h1
      · right
        refine ⟨v, b', nx', ?_⟩
        have hvp : v ≠ p := by
          intro hvp; subst hvp; rw [hpc] at h1; cases h1; exact hxq rfl
        rw [upd_ne _ _ hvp]; exact h1

/-- The end of the wake list. -/
theorem good_wake_end (h : Good s g) (p b : Nat) (hpc : s.pc p = .wake b none)
    (hl : LockInv (s.goto p .idle)) (ht : ∀ x, ((s.goto p .idle).pc x).tested) :
    Good (s.goto p .idle) g := by
  have hwp : g.w p = [] := by
    have := h.q.unl p
    rw [hpc] at this
    have : Chain s.next none (g.w p) none := this
    cases hw : g.w p with
    | nil => rfl
    | cons a l => rw [hw] at this; cases this.1
  have hlp : g.loc p = .none := h.q.loc_none (by intro b k; rw [hpc]; simp)
  have hpp : (s.goto p .idle).pc p = .idle := upd_same _ _ _
  have hpq : ∀ q, q ≠ p → (s.goto p .idle).pc q = s.pc q := fun q hq => upd_ne _ _ hq
  refine ⟨hl, ht, ?_, ?_, ?_, ?_⟩
  · refine h.q.frame1 p hlp hwp (by rw [hpc]; rfl) (by rw [hpp]; trivial) ?_ ?_
      (fun q hq => ⟨⟨rfl, rfl, rfl⟩, hpq q hq⟩) (fun _ => rfl)
    · show s.inserted p = false
      cases hi : s.inserted p with
      | false => rfl
      | true =>
        obtain ⟨b', hb'⟩ := h.q.ins p hi
        rw [hpc] at hb'; cases hb'
    · intro b' k w; rw [hpp]; simp
  · refine h.ti.step ?_
    intro c hc
    refine ⟨hc, fun x hx hx2 => ⟨hx, hx2⟩, ?_⟩
    refine tok_frame h.q p ?_ ?_ ?_ ?_ ?_ c ?_
    · exact hpq
    · exact fun _ _ h => h
    · exact fun _ _ => rfl
    · exact fun _ _ h => h
    · intro x hx; rw [hwp] at hx; cases hx
    · intro hk
      refine absurd hk (not_tok_of ?_)
      intro k _; rw [hpc]; simp
  · refine h.rd.step ?_
    intro c x k hx hxs
    have hxp : x ≠ p := by
      intro hxp; subst hxp; rw [hpp] at hxs; cases hxs
    rw [hpq x hxp] at hxs
    exact .inl ⟨hx, hxs, .inr⟩
  · intro x c k hx hst
    have hxp : x ≠ p := by
      intro hxp; subst hxp; rw [hpp] at hx; cases hx
    rw [hpq x hxp] at hx
    rcases h.wk x c k hx hst with h1 | ⟨v, b', nx', h1⟩
    · exact .inl h1
    · right
      refine ⟨v, b', nx', ?_⟩
      have hvp : v ≠ p := by
        intro hvp; subst hvp; rw [hpc] at h1; cases h1
      rw [hpq v hvp]; exact h1

/-- The holder marks waiters whose tuples it has inserted. -/
theorem good_mark (h : Good s g) (p b fuel : Nat) (sel : Nat → Bool) (hpc : s.pc p = .idle)
    (hh : s.holds p b = true) (hl : LockInv (stepMark s b fuel sel)) :
    Good (stepMark s b fuel sel) g := by
  obtain ⟨v, hv⟩ := (holds_iff s p b).1 hh
  have hfree : ∀ u, (s.pc u).unlPage ≠ some b := by
    intro u hu
    obtain ⟨w', hq'⟩ := unlPage_unlocking hu
    obtain ⟨v2, h2⟩ := (holds_iff s u b).1 (h.lock.unl u b w' hq').1
    have := h.lock.excl p u _ _ hv h2 rfl
    subst this
    rw [hpc] at hu; cases hu
  obtain ⟨f1, f2, f3, f4⟩ := h.q.free b hfree
  have hlist : g.list b = g.n b := by simp [Ghost.list, f2, f3, f4]
  have hmem : ∀ q, q ∈ (follow s.next fuel (s.word b).tail).filter
      (fun q => (s.status q == .insert) && sel q) → q ∈ g.list b ∧ s.status q = .insert := by
    intro q hq
    rw [List.mem_filter, f1.follow] at hq
    refine ⟨by rw [hlist]; exact List.mem_of_mem_take hq.1, ?_⟩
    have := hq.2
    simp only [Bool.and_eq_true] at this
    simpa using this.1
  have hins : ∀ q, (stepMark s b fuel sel).inserted q = true → s.inserted q = true ∨
      (q ∈ g.list b ∧ s.status q = .insert) := by
    intro q hq
    simp only [stepMark, Bool.or_eq_true, List.elem_eq_mem] at hq
    rcases hq with h1 | h1
    · exact .inl h1
    · exact .inr (hmem q (by simpa using h1))
  have hkeep : ∀ q, q ∉ g.list b → (stepMark s b fuel sel).inserted q = s.inserted q := by
    intro q hq
    cases hi : s.inserted q with
    | true => simp [stepMark, hi]
    | false =>
      cases hi' : (stepMark s b fuel sel).inserted q with
      | false => rfl
      | true =>
        rcases hins q hi' with h1 | h1
        · rw [hi] at h1; cases h1
        · exact absurd h1.1 hq
  have hmono : ∀ q, (stepMark s b fuel sel).inserted q = false → s.inserted q = false := by
    intro q hq
    simp only [stepMark, Bool.or_eq_false_iff] at hq
    exact hq.1
  have hlk : (s.word b).locked = true := by
    have := h.lock.held_word p _ hv
    rw [← this.2.1]; exact this.1
  have hpcs : (stepMark s b fuel sel).pc = s.pc := rfl
  refine ⟨hl, h.tested, ?_, ?_, ?_, h.wk⟩
  · constructor
    · exact h.q.page_mem
    · exact h.q.page_nodup
    · exact h.q.wake_mem
    · exact h.q.wake_nodup
    · exact h.q.sleeper
    · exact h.q.woken
    · intro q hq
      rcases hins q hq with h1 | ⟨h1, h2⟩
      · exact h.q.ins q h1
      · have hlq := (h.q.page_mem b q).1 h1
        obtain ⟨b', k', h3, h4, _⟩ := h.q.sleeper q (by rw [hlq]; simp)
        rw [h2] at h4
        have : k' = .insert := by cases k' <;> first | rfl | cases h4
        subst this
        exact ⟨b', h3⟩
    · exact h.q.casq
    · exact h.q.free
    · intro u
      refine uInv_frame (h.q.unl u) rfl ?_ ?_
      · intro x hx
        exact ⟨rfl, rfl, hkeep x (fun hc => h.q.not_page_wake hc hx)⟩
      · intro c hc
        refine ⟨rfl, rfl, rfl, rfl, rfl, ?_⟩
        intro x hx
        refine ⟨rfl, rfl, hkeep x (fun hc' => ?_)⟩
        have := h.q.page_uniq hx hc'
        subst this
        exact hfree u hc
    · exact h.q.nocrash
  · refine h.ti.step ?_
    intro c hc
    refine ⟨hc, ?_, ?_⟩
    · intro x hx hx2
      exact ⟨hx, hx2.1, hmono x hx2.2⟩
    · refine tok_frame h.q p ?_ ?_ ?_ ?_ ?_ c ?_
      · exact fun _ _ => rfl
      · exact fun _ _ h => h
      · exact fun _ _ => rfl
      · intro q hq hi
        rw [hkeep q ?_]; exact hi
        intro hc'
        rw [h.q.page_mem] at hc'
        rcases hq with h1 | ⟨u, h1⟩ <;> rw [h1] at hc' <;> cases hc'
      · intro q _ hk; rw [hpc] at hk; exact absurd hk (by simp [Pc.waking])
      · intro hk
        refine absurd hk (not_tok_of ?_)
        intro k _; rw [hpc]; simp
  · exact h.rd

/-- A step from one plain point to another that writes nothing the lists depend on. -/
theorem Good.goto (h : Good s g) (p : Nat) (c : Pc) (hl : LockInv (s.goto p c))
    (ht : ∀ q, ((s.goto p c).pc q).tested) (hp0 : (s.pc p).plain) (hpl : c.plain)
    (hcq : ∀ b k w, c ≠ .casQueue b k w)
    (htk : ∀ b, (s.word b).locked = false → tok s g b p → tok (s.goto p c) g b p) :
    Good (s.goto p c) g := by
  have hpp : (s.goto p c).pc p = c := upd_same _ _ _
  refine h.plain p hl ht hp0 (by rw [hpp]; exact hpl) rfl ?_
    (fun q hq => ⟨⟨rfl, rfl, rfl⟩, upd_ne _ _ hq⟩) (fun _ => rfl) (fun _ => id)
    (fun _ _ => .inr) htk (fun _ _ => rfl)
  intro b k w; rw [hpp]; intro hc; exact absurd hc (hcq b k w)

theorem good_go (h : Good s g) (p ch : Nat) : ∃ g', Good (stepGo s p ch) g' := by
  have hl := lockInv_go h.lock h.tested p ch
  have ht := tested_go h.tested p ch
  have hnt : (∀ b, (∀ k, k.locks = true → s.pc p ≠ .sleep b k ∧ s.pc p ≠ .start b k ∧
    (∀ w, s.pc p ≠ .loop b k w) ∧ (∀ w, s.pc p ≠ .casLock b k w) ∧
    (∀ w, s.pc p ≠ .casQueue b k w))) → ∀ b, ¬ tok s g b p := fun hh b => not_tok_of (hh b)
  cases hpc : s.pc p with
  | idle =>
    have : stepGo s p ch = s := by unfold stepGo; rw [hpc]
    rw [this]; exact ⟨g, h⟩
  | crash => exact absurd hpc (h.q.nocrash p)
  | start b k =>
    have hs : stepGo s p ch = s.goto p (.loop b k (s.word b)) := by unfold stepGo; rw [hpc]
    rw [hs] at hl ht ⊢
    refine ⟨g, h.goto p _ hl ht (by rw [hpc]; trivial) trivial (by intro b k w; simp) ?_⟩
    intro c hc htk
    obtain ⟨hcb, hk⟩ := tok_page htk (.inl hpc)
    subst hcb
    exact tok_loop (w := s.word c) hk (upd_same _ _ _) hc
  | loop b k w =>
    have hs : stepGo s p ch = stepLoop s p b k w ch := by unfold stepGo; rw [hpc]
    rw [hs] at hl ht ⊢
    exact ⟨g, good_loop h p b k w ch hpc hl ht⟩
  | casLock b k w =>
    have hs : stepGo s p ch = stepCasLock s p b k w ch := by unfold stepGo; rw [hpc]
    rw [hs] at hl ht ⊢
    exact ⟨g, good_casLock h p b k w ch hpc hl ht⟩
  | casQueue b k w =>
    have hs : stepGo s p ch = stepCasQueue s p b k w ch := by unfold stepGo; rw [hpc]
    rw [hs] at hl ht ⊢
    exact good_casQueue h p b k w ch hpc hl ht
  | sleep b k =>
    have hs : stepGo s p ch = stepSleep s p b k := by unfold stepGo; rw [hpc]
    rw [hs] at hl ht ⊢
    exact ⟨g, good_sleep h p b k hpc hl ht⟩
  | uread b sp =>
    have hs : stepGo s p ch = s.goto p (.walk (unlStart b sp (s.word b) none none none false)) := by
      unfold stepGo; rw [hpc]
    rw [hs] at hl ht ⊢
    exact good_uread h p b sp hpc hl ht
  | walk u =>
    have hs : stepGo s p ch = stepWalk s p u := by unfold stepGo; rw [hpc]
    rw [hs] at hl ht ⊢
    exact good_walk h p u hpc hl ht
  | ucas u =>
    have hs : stepGo s p ch = stepUcas s p u := by unfold stepGo; rw [hpc]
    rw [hs] at hl ht ⊢
    exact good_ucas h p u hpc hl ht
  | wake b hd =>
    cases hd with
    | none =>
      have hs : stepGo s p ch = s.goto p .idle := by unfold stepGo; rw [hpc]
      rw [hs] at hl ht ⊢
      exact ⟨g, good_wake_end h p b hpc hl ht⟩
    | some q =>
      have hs : stepGo s p ch = { s with
          status := upd s.status q .wakeUp, pc := upd s.pc p (.post b q (s.next q)) } := by
        unfold stepGo; rw [hpc]
      rw [hs] at hl ht ⊢
      exact good_wake h p b q hpc hl ht
  | post b q nx =>
    have hs : stepGo s p ch = { s with
      sem := upd s.sem q (s.sem q + 1), recv := upd s.recv q (s.recv q + 1),
      pc := upd s.pc p (.wake b nx) } := by
      unfold stepGo; rw [hpc]
    rw [hs] at hl ht ⊢
    exact ⟨g, good_post h p b q nx hpc hl ht⟩
  | rd b s1 v0 img =>
    have hs : stepGo s p ch = s.goto p (.rd b s1 v0 (upd img ch (some (s.mem b ch)))) := by
      unfold stepGo; rw [hpc]
    rw [hs] at hl ht ⊢
    refine ⟨g, h.goto p _ hl ht (by rw [hpc]; trivial) trivial (by intro b k w; simp) ?_⟩
    intro c _ htk
    exact absurd htk (hnt (by intro b k _; rw [hpc]; simp) c)

/-- The invariant is inductive. -/
theorem good_step (h : Good s g) (a : Act) : ∃ g', Good (step s a) g' := by
  have hl := lockInv_step h.lock h.tested a
  have ht := tested_step h.tested a
  have hnt : ∀ p, s.pc p = .idle → ∀ b, ¬ tok s g b p := by
    intro p hp b
    apply not_tok_of
    intro k _; rw [hp]; simp
  have hpi : ∀ p, s.pc p = .idle → (s.pc p).plain := by intro p hp; rw [hp]; trivial
  cases a with
  | go p ch => exact good_go h p ch
  | call p b k =>
    rw [step] at hl ht ⊢
    split at hl
    · rename_i hc
      rw [if_pos hc] at ht ⊢
      simp only [Bool.and_eq_true] at hc
      have hp := isIdle_iff hc.1.1
      refine ⟨g, h.plain p hl ht (hpi p hp) ?_ rfl ?_ ?_ (fun _ => rfl) (fun _ => id)
        (fun _ _ => .inr) (fun c _ hk => absurd hk (hnt p hp c)) (fun _ _ => rfl)⟩
      · dsimp only; rw [upd_same]; trivial
      · intro b' k' w; dsimp only; rw [upd_same]; intro hc; cases hc
      · intro q hq; exact ⟨⟨rfl, rfl, rfl⟩, upd_ne _ _ hq⟩
    · rename_i hc
      rw [if_neg hc]; exact ⟨g, h⟩
  | waitChange p b cc =>
    rw [step] at hl ht ⊢
    split at hl
    · rename_i hc
      rw [if_pos hc] at ht ⊢
      have hp := isIdle_iff hc
      refine ⟨g, h.plain p hl ht (hpi p hp) ?_ rfl ?_ ?_ (fun _ => rfl) (fun _ => id)
        (fun _ _ => .inr) (fun c _ hk => absurd hk (hnt p hp c)) (fun _ _ => rfl)⟩
      · dsimp only; rw [upd_same]; trivial
      · intro b' k' w; dsimp only; rw [upd_same]; intro hc; cases hc
      · intro q hq; exact ⟨⟨rfl, rfl, rfl⟩, upd_ne _ _ hq⟩
    · rename_i hc
      rw [if_neg hc]; exact ⟨g, h⟩
  | tryLock p b ch =>
    rw [step] at hl ht ⊢
    split at hl
    · rename_i hc
      rw [if_pos hc] at ht ⊢
      refine ⟨g, h.idle hl rfl rfl rfl rfl ?_ ?_ ?_ (fun _ _ _ _ _ => Nat.le_refl _)⟩
      · intro c
        dsimp only
        by_cases hcb : c = b
        · subst hcb; rw [upd_same]
        · rw [upd_ne _ _ hcb]
      · intro c
        dsimp only
        by_cases hcb : c = b
        · subst hcb; rw [upd_same]; simp
        · rw [upd_ne _ _ hcb]; exact id
      · intro c k hk
        dsimp only
        by_cases hcb : c = b
        · subst hcb; rw [upd_same]; cases k <;> simp_all [Kind.locks, Kind.mustWait]
        · rw [upd_ne _ _ hcb]; exact .inr hk
    · rename_i hc
      rw [if_neg hc]; exact ⟨g, h⟩
  | unlock p b split =>
    rw [step] at hl ht ⊢
    split at hl
    · rename_i hc
      rw [if_pos hc] at ht ⊢
      simp only [Bool.and_eq_true] at hc
      have hp := isIdle_iff hc.1
      exact ⟨g, h.goto p _ hl ht (hpi p hp) trivial (by intro b k w; simp)
        (fun c _ hk => absurd hk (hnt p hp c))⟩
    · rename_i hc
      rw [if_neg hc]; exact ⟨g, h⟩
  | block p b =>
    rw [step] at hl ht ⊢
    split at hl
    · rename_i hc
      rw [if_pos hc] at ht ⊢
      unfold stepBlock at hl ht ⊢
      split at hl
      · exact ⟨g, h⟩
      · rename_i w hh
        rw [hh] at ht
        dsimp only at ht
        split at hl
        · rename_i hn; rw [if_pos hn] at ht ⊢; exact ⟨g, h⟩
        · rename_i hn
          rw [if_neg hn] at ht ⊢
          refine ⟨g, h.idle hl rfl rfl rfl rfl ?_ ?_ ?_ (fun _ _ _ _ _ => Nat.le_refl _)⟩
          · intro c
            dsimp only
            by_cases hcb : c = b
            · subst hcb; rw [upd_same]
            · rw [upd_ne _ _ hcb]
          · intro c
            dsimp only
            by_cases hcb : c = b
            · subst hcb; rw [upd_same]; exact id
            · rw [upd_ne _ _ hcb]; exact id
          · intro c k hk
            dsimp only
            by_cases hcb : c = b
            · subst hcb; rw [upd_same]; cases k <;> simp_all [Kind.locks, Kind.mustWait]
            · rw [upd_ne _ _ hcb]; exact .inr hk
    · rename_i hc
      rw [if_neg hc]; exact ⟨g, h⟩
  | write p b i v =>
    rw [step] at hl ht ⊢
    split at hl
    · rename_i hc
      rw [if_pos hc] at ht ⊢
      exact ⟨g, h.idle hl rfl rfl rfl rfl (fun _ => rfl) (fun _ => id) (fun _ _ => .inr)
        (fun _ _ _ _ _ => Nat.le_refl _)⟩
    · rename_i hc
      rw [if_neg hc]; exact ⟨g, h⟩
  | mark p b fuel sel =>
    rw [step] at hl ht ⊢
    split at hl
    · rename_i hc
      rw [if_pos hc] at ht ⊢
      simp only [Bool.and_eq_true] at hc
      exact ⟨g, good_mark h p b fuel sel (isIdle_iff hc.1) hc.2 hl⟩
    · rename_i hc
      rw [if_neg hc]; exact ⟨g, h⟩
  | read p b =>
    rw [step] at hl ht ⊢
    split at hl
    · rename_i hc
      rw [if_pos hc] at ht ⊢
      simp only [Bool.and_eq_true] at hc
      have hp := isIdle_iff hc.1
      exact ⟨g, h.goto p _ hl ht (hpi p hp) trivial (by intro b k w; simp)
        (fun c _ hk => absurd hk (hnt p hp c))⟩
    · rename_i hc
      rw [if_neg hc]; exact ⟨g, h⟩
  | accept p =>
    rw [step] at hl ht ⊢
    split at hl
    · rename_i b s1 v0 img hp
      rw [hp] at ht
      dsimp only at ht
      split at hl
      · rename_i hc; rw [if_pos hc]; exact ⟨g, h⟩
      · rename_i hc
        rw [if_neg hc] at ht ⊢
        refine ⟨g, h.goto p _ hl ht (by rw [hp]; trivial) trivial (by intro b k w; simp)
          (fun c _ hk => absurd hk (not_tok_of ?_))⟩
        intro k _; rw [hp]; simp
    · exact ⟨g, h⟩
  | drop p =>
    rw [step] at hl ht ⊢
    split at hl
    · rename_i b s1 v0 img hp
      rw [hp] at ht
      dsimp only at ht
      refine ⟨g, h.goto p _ hl ht (by rw [hp]; trivial) trivial (by intro b k w; simp)
        (fun c _ hk => absurd hk (not_tok_of ?_))⟩
      intro k _; rw [hp]; simp
    · exact ⟨g, h⟩
  | touch b u =>
    rw [step] at hl ht ⊢
    refine ⟨g, h.idle hl rfl rfl rfl rfl ?_ ?_ ?_ (fun _ _ _ _ _ => Nat.le_refl _)⟩
    · intro c
      dsimp only
      by_cases hcb : c = b
      · subst hcb; rw [upd_same]
      · rw [upd_ne _ _ hcb]
    · intro c
      dsimp only
      by_cases hcb : c = b
      · subst hcb; rw [upd_same]; exact id
      · rw [upd_ne _ _ hcb]; exact id
    · intro c k hk
      dsimp only
      by_cases hcb : c = b
      · subst hcb; rw [upd_same]; cases k <;> exact .inr hk
      · rw [upd_ne _ _ hcb]; exact .inr hk
  | signal p =>
    rw [step] at hl ht ⊢
    refine ⟨g, h.idle hl rfl rfl rfl rfl (fun _ => rfl) (fun _ => id) (fun _ _ => .inr) ?_⟩
    intro q _ _ _ _
    dsimp only
    by_cases hq : q = p
    · subst hq; rw [upd_same]; omega
    · rw [upd_ne _ _ hq]; exact Nat.le_refl _
  | take p =>
    rw [step] at hl ht ⊢
    split at hl
    · rename_i hc
      rw [if_pos hc] at ht ⊢
      simp only [Bool.and_eq_true] at hc
      have hp := isIdle_iff hc.1
      refine ⟨g, h.idle hl rfl rfl rfl rfl (fun _ => rfl) (fun _ => id) (fun _ _ => .inr) ?_⟩
      intro q b k hq _
      have hqp : q ≠ p := by
        intro hqp; subst hqp; rw [hp] at hq; cases hq
      dsimp only
      rw [upd_ne _ _ hqp]; exact Nat.le_refl _
    · rename_i hc
      rw [if_neg hc]; exact ⟨g, h⟩

theorem run_good (as : List Act) : ∀ (s : St) (g : Ghost), Good s g → ∃ g', Good (run s as) g' := by
  induction as with
  | nil => intro s g h; exact ⟨g, h⟩
  | cons a as ih =>
    intro s g h
    obtain ⟨g1, h1⟩ := good_step h a
    exact ih _ g1 h1

theorem reach_good (as : List Act) : ∃ g, Good (run init as) g := run_good as _ _ init_good

end

end Verif.PageState
