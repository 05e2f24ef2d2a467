import Verif.UndoLog.StepPin

/-!
# What is granted fits into the ring, in all runs
-/

namespace Verif.UndoLog

variable {c : Cfg} {s s' : St}

theorem cnt_le {sz : Nat → Nat} {pc : Nat → Pc} {l p : Nat} : cnt sz pc l p ≤ sz p := by
  unfold cnt; omega

theorem cnt_of_none {sz : Nat → Nat} {pc : Nat → Pc} {l p : Nat} (h : (pc p).pend = none) :
    cnt sz pc l p = sz p := by
  unfold cnt; rw [h]; rfl

theorem cnt_congr {sz sz' : Nat → Nat} {pc pc' : Nat → Pc} {l p : Nat} (h : sz' p = sz p)
    (h2 : pc' p = pc p) : cnt sz' pc' l p = cnt sz pc l p := by
  unfold cnt; rw [h, h2]

/-- A step of process `p` alone. -/
theorem sums_one {p : Nat} (h : Sums c s) (hp : p < c.procs)
    (hw : s'.written = s.written) (hwip : s'.wip = s.wip) (hev : s'.ev = s.ev)
    (hpc : ∀ q, q ≠ p → s'.pc q = s.pc q) (hsz : ∀ q, q ≠ p → s'.sz q = s.sz q)
    (hpend : ∀ t k, (s'.pc p).pend = some (t, k) → k ≤ s'.sz p)
    (htot : s'.adv + s.sz p + s.used = s.adv + s'.sz p + s'.used)
    (hgrant : ∀ l, s.written + c.size ≤ l →
      s'.used + cnt s'.sz s'.pc l p ≤ s.used + cnt s.sz s.pc l p ∨ s'.adv ≤ l)
    (hwait : ∀ t k, s'.pc p = .waiting t k → t ≤ s.wip + c.size)
    (hev' : ∀ t k, s'.pc p ≠ .evicting t k)
    (hown : s.pc p ≠ .bgEv ∧ ∀ t k, s.pc p ≠ .evicting t k) : Sums c s' := by
  have htotal : s'.adv = s'.used + sumTo c.procs s'.sz := by
    have h1 := sumTo_one (f := s'.sz) (g := s.sz) (p := p) c.procs hp (fun q _ hn => hsz q hn)
    have h2 := h.total
    omega
  exact
    { pend := by
        intro q t k hq
        by_cases e : q = p
        · subst e; exact hpend t k hq
        · rw [hpc q e] at hq; rw [hsz q e]; exact h.pend q t k hq
      total := htotal
      grant := by
        intro l hl
        rw [hw] at hl
        rcases hgrant l hl with h1 | h1
        · have h2 := sumTo_one (f := cnt s'.sz s'.pc l) (g := cnt s.sz s.pc l) (p := p) c.procs hp
            (fun q _ hn => cnt_congr (hsz q hn) (hpc q hn))
          have h3 := h.grant l hl
          omega
        · have h2 := sumTo_le (f := cnt s'.sz s'.pc l) (g := s'.sz) c.procs (fun q _ => cnt_le)
          omega
      waiting := by
        intro q t k hq
        rw [hwip]
        by_cases e : q = p
        · subst e; exact hwait t k hq
        · rw [hpc q e] at hq; exact h.waiting q t k hq
      evicting := by
        intro q t k hq
        rw [hev]
        by_cases e : q = p
        · subst e; exact absurd hq (hev' t k)
        · rw [hpc q e] at hq; exact h.evicting q t k hq
      ownerLt := by rw [hev]; exact h.ownerLt
      owner := by
        intro e he
        rw [hev] at he
        have h1 := h.owner e he
        by_cases e1 : e.owner = p
        · rw [e1] at h1
          rcases h1 with h1 | ⟨t, k, h1⟩
          · exact absurd h1 hown.1
          · exact absurd h1 (hown.2 t k)
        · rw [hpc _ e1]; exact h1 }

theorem sums_attempt {p n : Nat} {r : Pc} (h : Sums c s) (hp : p < c.procs)
    (h0 : (s.pc p).pend = none) (h1 : r.pend = none) (h2 : ∀ t k, r ≠ .evicting t k)
    (h3 : ∀ t k, r ≠ .waiting t k)
    (hown : s.pc p ≠ .bgEv ∧ ∀ t k, s.pc p ≠ .evicting t k) : Sums c (attempt c s p n r) := by
  unfold attempt
  split
  · refine sums_one (p := p) h hp rfl rfl rfl (fun q hq => upd_ne hq) (fun q hq => rfl) ?_ ?_ ?_ ?_
      ?_ hown
    · simp [to, upd_self, Pc.pend]
    · simp only [to]
    · intro l _
      rw [cnt_of_none h0, cnt_of_none (by simp [to, upd_self, Pc.pend])]
      exact .inl (Nat.le_refl _)
    · simp [to, upd_self]
    · simp [to, upd_self]
  · have key : ∀ pc', pc'.pend = none → (∀ t k, pc' ≠ .evicting t k) →
        (∀ t k, pc' ≠ .waiting t k) → ∀ s'', s''.written = s.written → s''.wip = s.wip →
        s''.ev = s.ev → s''.pc = upd s.pc p pc' → s''.sz = upd s.sz p (s.sz p - n) →
        s''.used = s.used + n → s''.adv = s.adv → Sums c s'' := by
      intro pc' g1 g2 g3 s'' e1 e2 e3 e4 e5 e6 e7
      refine sums_one (p := p) h hp e1 e2 e3 (fun q hq => by rw [e4, upd_ne hq])
        (fun q hq => by rw [e5, upd_ne hq]) ?_ ?_ ?_ ?_ ?_ hown
      · simp [e4, upd_self, g1]
      · rw [e5, e6, e7, upd_self]; omega
      · intro l _
        rw [cnt_of_none h0, cnt_of_none (by rw [e4, upd_self]; exact g1), e5, e6, upd_self]
        left; omega
      · intro t k e; rw [e4, upd_self] at e; exact absurd e (g3 t k)
      · intro t k e; rw [e4, upd_self] at e; exact absurd e (g2 t k)
    split
    · exact key (.fill s.used n 0) rfl (by simp) (by simp) _ rfl rfl rfl rfl rfl rfl rfl
    · exact key r h1 h2 h3 _ rfl rfl rfl rfl rfl rfl rfl

theorem sums_evictStart {p t m : Nat} {pc : Pc} (h : Sums c s) (hp : p < c.procs)
    (hf : s.ev = none) (h0 : pc.pend = (s.pc p).pend) (h1 : ∀ t k, pc ≠ .waiting t k)
    (h2 : pc = .bgEv ∨ ∃ t' k, pc = .evicting t' k ∧ t' ≤ t + c.size) :
    Sums c (evictStart s p t m pc) := by
  have hcnt : ∀ l q, cnt s.sz (upd s.pc p pc) l q = cnt s.sz s.pc l q := by
    intro l q
    by_cases e : q = p
    · subst e; unfold cnt; rw [upd_self, h0]
    · exact cnt_congr rfl (upd_ne e)
  unfold evictStart
  exact
    { pend := by
        intro q t' k hq
        dsimp only at hq
        by_cases e : q = p
        · subst e; rw [upd_self, h0] at hq; exact h.pend q t' k hq
        · rw [upd_ne e] at hq; exact h.pend q t' k hq
      total := h.total
      grant := by
        intro l hl
        have h3 := h.grant l hl
        dsimp only
        rw [sumTo_congr c.procs (fun q _ => hcnt l q)]
        exact h3
      waiting := by
        intro q t' k hq
        dsimp only at hq
        by_cases e : q = p
        · subst e; rw [upd_self] at hq; exact absurd hq (h1 t' k)
        · rw [upd_ne e] at hq; exact h.waiting q t' k hq
      evicting := by
        intro q t' k hq
        dsimp only at hq
        by_cases e : q = p
        · subst e
          rw [upd_self] at hq
          rcases h2 with h2 | ⟨t'', k', h2, h4⟩
          · rw [h2] at hq; exact absurd hq (by simp)
          · rw [h2] at hq
            cases hq
            exact ⟨_, rfl, rfl, h4⟩
        · rw [upd_ne e] at hq
          obtain ⟨e', he, _⟩ := h.evicting q t' k hq
          rw [hf] at he; exact absurd he (by simp)
      ownerLt := by intro e he; cases he; exact hp
      owner := by
        intro e he
        cases he
        dsimp only
        rw [upd_self]
        rcases h2 with h2 | ⟨t'', k', h2, _⟩
        · exact .inl h2
        · exact .inr ⟨t'', k', h2⟩ }

theorem lockFree_ev (h : lockFree s = true) : s.ev = none := by
  unfold lockFree at h
  split at h <;> simp_all

set_option maxHeartbeats 4000000 in
theorem sums_go {p : Nat} (hb : Base c s) (h : Sums c s) (hp : p < c.procs) :
    Sums c (go c s p) := by
  have hw := h.waiting p
  have hpe := h.pend p
  unfold go
  split
  all_goals try exact h
  all_goals rename_i hpc; rw [hpc] at hw hpe
  all_goals first
    | exact sums_attempt h hp (by rw [hpc]; rfl) rfl (by simp) (by simp) (by simp [hpc])
    | skip
  all_goals (try split)
  all_goals first
    | exact h
    | exact sums_evictStart h hp (lockFree_ev (by assumption)) (by rw [hpc]; rfl) (by simp)
        (.inl rfl)
    | exact sums_evictStart h hp (lockFree_ev (by assumption)) (by rw [hpc]; rfl) (by simp)
        (.inr ⟨_, _, rfl, by omega⟩)
    | skip
  all_goals
    refine sums_one (p := p) h hp rfl rfl rfl (fun q hq => upd_ne hq) (fun q hq => rfl) ?_ ?_ ?_ ?_
      ?_ (by simp [hpc])
  all_goals (try simp only [to, upd_self])
  all_goals first
    | (intro l hl
       have hmw := hb.marks.free
       simp only [cnt, upd_self, hpc, Pc.pend]
       left
       grind)
    | (clear hb h; grind [Pc.pend])


/-- A step that leaves all of this alone. -/
theorem sums_same (h : Sums c s) (e1 : s'.used = s.used) (e2 : s'.adv = s.adv)
    (e3 : s'.written = s.written) (e4 : s'.wip = s.wip) (e5 : s'.sz = s.sz) (e6 : s'.pc = s.pc)
    (e7 : s'.ev = s.ev) : Sums c s' :=
  { pend := by rw [e5, e6]; exact h.pend
    total := by rw [e1, e2, e5]; exact h.total
    grant := by rw [e1, e3, e5, e6]; exact h.grant
    waiting := by rw [e6, e4]; exact h.waiting
    evicting := by rw [e6, e7]; exact h.evicting
    ownerLt := by rw [e7]; exact h.ownerLt
    owner := by rw [e6, e7]; exact h.owner }

theorem sums_reserve {p k : Nat} (h : Sums c s) (hp : p < c.procs) : Sums c (reserve s p k) := by
  have hpe := h.pend p
  have hto := sumTo_ge (f := s.sz) (p := p) c.procs hp
  rw [show sumTo c.procs s.sz = s.adv - s.used by have := h.total; omega] at hto
  have hto2 := h.total
  unfold reserve
  split <;> (try exact h)
  all_goals rename_i hpc; rw [hpc] at hpe
  all_goals (try split)
  all_goals first
    | exact h
    | skip
  all_goals
    refine sums_one (p := p) h hp rfl rfl rfl ?_ ?_ ?_ ?_ ?_ ?_ ?_ (by simp [hpc])
  all_goals first
    | exact fun q hq => rfl
    | exact fun q hq => upd_ne hq
    | skip
  all_goals (try simp only [to, upd_self])
  all_goals first
    | (intro l hl
       simp only [cnt, upd_self, hpc, Pc.pend]
       grind)
    | (clear h; grind [Pc.pend])

theorem sums_giveUp {p : Nat} (h : Sums c s) (hp : p < c.procs) : Sums c (giveUp s p) := by
  have hpe := h.pend p
  have hto := sumTo_ge (f := s.sz) (p := p) c.procs hp
  rw [show sumTo c.procs s.sz = s.adv - s.used by have := h.total; omega] at hto
  have hto2 := h.total
  unfold giveUp
  split <;> (try exact h)
  all_goals rename_i hpc; rw [hpc] at hpe; have hpe' := hpe _ _ rfl
  all_goals (try split)
  all_goals first
    | exact h
    | skip
  all_goals
    refine sums_one (p := p) h hp rfl rfl rfl ?_ ?_ ?_ ?_ ?_ ?_ ?_ (by simp [hpc])
  all_goals first
    | exact fun q hq => rfl
    | exact fun q hq => upd_ne hq
    | skip
  all_goals (try simp only [to, upd_self])
  all_goals first
    | (intro l hl
       simp only [cnt, upd_self, hpc, Pc.pend]
       grind)
    | (clear h; grind [Pc.pend])

theorem sums_releaseSize {p : Nat} (h : Sums c s) (hp : p < c.procs) : Sums c (releaseSize s p) := by
  have hpe := h.pend p
  have hto := sumTo_ge (f := s.sz) (p := p) c.procs hp
  rw [show sumTo c.procs s.sz = s.adv - s.used by have := h.total; omega] at hto
  have hto2 := h.total
  unfold releaseSize
  split <;> (try exact h)
  all_goals rename_i hpc; rw [hpc] at hpe
  all_goals (try split)
  all_goals first
    | exact h
    | skip
  all_goals
    refine sums_one (p := p) h hp rfl rfl rfl ?_ ?_ ?_ ?_ ?_ ?_ ?_ (by simp [hpc])
  all_goals first
    | exact fun q hq => rfl
    | exact fun q hq => upd_ne hq
    | skip
  all_goals (try simp only [to, upd_self])
  all_goals first
    | (intro l hl
       simp only [cnt, upd_self, hpc, Pc.pend]
       grind)
    | (clear h; grind [Pc.pend])

theorem sums_bg {p k : Nat} (h : Sums c s) (hp : p < c.procs) : Sums c (bg s p k) := by
  have hpe := h.pend p
  have hto := sumTo_ge (f := s.sz) (p := p) c.procs hp
  rw [show sumTo c.procs s.sz = s.adv - s.used by have := h.total; omega] at hto
  have hto2 := h.total
  unfold bg
  split <;> (try exact h)
  all_goals rename_i hpc; rw [hpc] at hpe
  all_goals (try split)
  all_goals first
    | exact h
    | skip
  all_goals
    refine sums_one (p := p) h hp rfl rfl rfl ?_ ?_ ?_ ?_ ?_ ?_ ?_ (by simp [hpc])
  all_goals first
    | exact fun q hq => rfl
    | exact fun q hq => upd_ne hq
    | skip
  all_goals (try simp only [to, upd_self])
  all_goals first
    | (intro l hl
       simp only [cnt, upd_self, hpc, Pc.pend]
       grind)
    | (clear h; grind [Pc.pend])

theorem sums_get {p k : Nat} (h : Sums c s) (hp : p < c.procs) : Sums c (get c s p k) := by
  have hpe := h.pend p
  have hto := sumTo_ge (f := s.sz) (p := p) c.procs hp
  rw [show sumTo c.procs s.sz = s.adv - s.used by have := h.total; omega] at hto
  have hto2 := h.total
  unfold get
  split <;> (try exact h)
  all_goals rename_i hpc; rw [hpc] at hpe
  all_goals (try split)
  all_goals first
    | exact h
    | skip
  all_goals
    refine sums_one (p := p) h hp rfl rfl rfl ?_ ?_ ?_ ?_ ?_ ?_ ?_ (by simp [hpc])
  all_goals first
    | exact fun q hq => rfl
    | exact fun q hq => upd_ne hq
    | skip
  all_goals (try simp only [to, upd_self])
  all_goals first
    | (intro l hl
       simp only [cnt, upd_self, hpc, Pc.pend]
       grind)
    | (clear h; grind [Pc.pend])

theorem sums_put {p k : Nat} (h : Sums c s) (hp : p < c.procs) : Sums c (put c s p k) := by
  have hpe := h.pend p
  have hto := sumTo_ge (f := s.sz) (p := p) c.procs hp
  rw [show sumTo c.procs s.sz = s.adv - s.used by have := h.total; omega] at hto
  have hto2 := h.total
  unfold put
  split <;> (try exact h)
  all_goals rename_i hpc; rw [hpc] at hpe
  all_goals (try split)
  all_goals first
    | exact h
    | skip
  all_goals
    refine sums_one (p := p) h hp rfl rfl rfl ?_ ?_ ?_ ?_ ?_ ?_ ?_ (by simp [hpc])
  all_goals first
    | exact fun q hq => rfl
    | exact fun q hq => upd_ne hq
    | skip
  all_goals (try simp only [to, upd_self])
  all_goals first
    | (intro l hl
       simp only [cnt, upd_self, hpc, Pc.pend]
       grind)
    | (clear h; grind [Pc.pend])

theorem sums_release {p : Nat} (h : Sums c s) (hp : p < c.procs) : Sums c (release s p) := by
  have hpe := h.pend p
  have hto := sumTo_ge (f := s.sz) (p := p) c.procs hp
  rw [show sumTo c.procs s.sz = s.adv - s.used by have := h.total; omega] at hto
  have hto2 := h.total
  unfold release
  split <;> (try exact h)
  all_goals rename_i hpc; rw [hpc] at hpe
  all_goals (try split)
  all_goals first
    | exact h
    | skip
  all_goals
    refine sums_one (p := p) h hp rfl rfl rfl ?_ ?_ ?_ ?_ ?_ ?_ ?_ (by simp [hpc])
  all_goals first
    | exact fun q hq => rfl
    | exact fun q hq => upd_ne hq
    | skip
  all_goals (try simp only [to, upd_self])
  all_goals first
    | (intro l hl
       simp only [cnt, upd_self, hpc, Pc.pend]
       grind)
    | (clear h; grind [Pc.pend])

theorem sums_queue {p : Nat} (h : Sums c s) (hp : p < c.procs) : Sums c (queue s p) := by
  have hpe := h.pend p
  have hto := sumTo_ge (f := s.sz) (p := p) c.procs hp
  rw [show sumTo c.procs s.sz = s.adv - s.used by have := h.total; omega] at hto
  have hto2 := h.total
  unfold queue
  split <;> (try exact h)
  all_goals rename_i hpc; rw [hpc] at hpe
  all_goals (try split)
  all_goals first
    | exact h
    | skip
  all_goals
    refine sums_one (p := p) h hp rfl rfl rfl ?_ ?_ ?_ ?_ ?_ ?_ ?_ (by simp [hpc])
  all_goals first
    | exact fun q hq => rfl
    | exact fun q hq => upd_ne hq
    | skip
  all_goals (try simp only [to, upd_self])
  all_goals first
    | (intro l hl
       simp only [cnt, upd_self, hpc, Pc.pend]
       grind)
    | (clear h; grind [Pc.pend])

theorem sums_wake {p : Nat} (h : Sums c s) (hp : p < c.procs) : Sums c (wake s p) := by
  have hpe := h.pend p
  have hto := sumTo_ge (f := s.sz) (p := p) c.procs hp
  rw [show sumTo c.procs s.sz = s.adv - s.used by have := h.total; omega] at hto
  have hto2 := h.total
  unfold wake
  split <;> (try exact h)
  all_goals rename_i hpc; rw [hpc] at hpe
  all_goals (try split)
  all_goals first
    | exact h
    | skip
  all_goals
    refine sums_one (p := p) h hp rfl rfl rfl ?_ ?_ ?_ ?_ ?_ ?_ ?_ (by simp [hpc])
  all_goals first
    | exact fun q hq => rfl
    | exact fun q hq => upd_ne hq
    | skip
  all_goals (try simp only [to, upd_self])
  all_goals first
    | (intro l hl
       simp only [cnt, upd_self, hpc, Pc.pend]
       grind)
    | (clear h; grind [Pc.pend])

theorem sums_free {p : Nat} (h : Sums c s) : Sums c (free s p) := by
  unfold free
  split <;> (try split) <;> (try split) <;>
    first | exact h | exact sums_same h rfl rfl rfl rfl rfl rfl rfl

theorem sums_snap {p : Nat} (h : Sums c s) (hp : p < c.procs) : Sums c (snap s p) := by
  have hpe := h.pend p
  have hto := sumTo_ge (f := s.sz) (p := p) c.procs hp
  rw [show sumTo c.procs s.sz = s.adv - s.used by have := h.total; omega] at hto
  have hto2 := h.total
  unfold snap
  split <;> (try exact h)
  all_goals rename_i hpc; rw [hpc] at hpe
  all_goals (try split)
  all_goals first
    | exact h
    | skip
  all_goals
    refine sums_one (p := p) h hp rfl rfl rfl ?_ ?_ ?_ ?_ ?_ ?_ ?_ (by simp [hpc])
  all_goals first
    | exact fun q hq => rfl
    | exact fun q hq => upd_ne hq
    | skip
  all_goals (try simp only [to, upd_self])
  all_goals first
    | (intro l hl
       simp only [cnt, upd_self, hpc, Pc.pend]
       grind)
    | (clear h; grind [Pc.pend])

theorem sums_drop {p k : Nat} (h : Sums c s) : Sums c (drop s p k) := by
  unfold drop
  split <;> (try split) <;> (try split) <;>
    first | exact h | exact sums_same h rfl rfl rfl rfl rfl rfl rfl

theorem sums_reset {p : Nat} (h : Sums c s) : Sums c (reset s p) := by
  unfold reset
  split <;> (try split) <;> (try split) <;>
    first | exact h | exact sums_same h rfl rfl rfl rfl rfl rfl rfl

theorem sums_clearMy {p : Nat} (h : Sums c s) : Sums c (clearMy s p) := by
  unfold clearMy
  split <;> (try split) <;> (try split) <;>
    first | exact h | exact sums_same h rfl rfl rfl rfl rfl rfl rfl

theorem sums_write {p k : Nat} {vs : List Nat} (h : Sums c s) (hp : p < c.procs) : Sums c (write c s p k vs) := by
  have hpe := h.pend p
  have hto := sumTo_ge (f := s.sz) (p := p) c.procs hp
  rw [show sumTo c.procs s.sz = s.adv - s.used by have := h.total; omega] at hto
  have hto2 := h.total
  unfold write
  split <;> (try exact h)
  all_goals rename_i hpc; rw [hpc] at hpe
  all_goals (try split)
  all_goals first
    | exact h
    | skip
  all_goals
    refine sums_one (p := p) h hp rfl rfl rfl ?_ ?_ ?_ ?_ ?_ ?_ ?_ (by simp [hpc])
  all_goals first
    | exact fun q hq => rfl
    | exact fun q hq => upd_ne hq
    | skip
  all_goals (try simp only [to, upd_self])
  all_goals first
    | (intro l hl
       simp only [cnt, upd_self, hpc, Pc.pend]
       grind)
    | (clear h; grind [Pc.pend])

theorem sums_read {p k n : Nat} (h : Sums c s) (hp : p < c.procs) : Sums c (read c s p k n) := by
  have hpe := h.pend p
  have hto := sumTo_ge (f := s.sz) (p := p) c.procs hp
  rw [show sumTo c.procs s.sz = s.adv - s.used by have := h.total; omega] at hto
  have hto2 := h.total
  unfold read
  split <;> (try exact h)
  all_goals rename_i hpc; rw [hpc] at hpe
  all_goals (try split)
  all_goals first
    | exact h
    | skip
  all_goals
    refine sums_one (p := p) h hp rfl rfl rfl ?_ ?_ ?_ ?_ ?_ ?_ ?_ (by simp [hpc])
  all_goals first
    | exact fun q hq => rfl
    | exact fun q hq => upd_ne hq
    | skip
  all_goals (try simp only [to, upd_self])
  all_goals first
    | (intro l hl
       simp only [cnt, upd_self, hpc, Pc.pend]
       grind)
    | (clear h; grind [Pc.pend])

theorem sums_steal {q p : Nat} (h : Sums c s) (hq : q < c.procs) (hp : p < c.procs) :
    Sums c (steal s q p) := by
  unfold steal
  split
  · rename_i e1 e2
    have hne : q ≠ p := by intro e; subst e; rw [e1] at e2; exact absurd e2 (by simp)
    have hsum : ∀ f : Nat → Nat, f q = s.sz q → f p = s.sz p →
        sumTo c.procs (fun i => if i = p then 0 else if i = q then f q + f p else f i)
          = sumTo c.procs f := by
      intro f f1 f2
      have h1 := sumTo_one (f := upd f q (f q + f p)) (g := f) (p := q) c.procs hq
        (fun i _ hn => upd_ne hn)
      have h2 := sumTo_one
        (f := fun i => if i = p then 0 else if i = q then f q + f p else f i)
        (g := upd f q (f q + f p)) (p := p) c.procs hp
        (fun i _ hn => by simp only [hn, upd]; rfl)
      rw [upd_self] at h1
      rw [upd_ne (Ne.symm hne)] at h2
      simp only [if_pos] at h2
      omega
    exact
      { pend := by
          intro i t k hi
          dsimp only at hi ⊢
          by_cases ep : i = p
          · subst ep; rw [e2] at hi; exact absurd hi (by simp [Pc.pend])
          · by_cases eq : i = q
            · subst eq; rw [e1] at hi; exact absurd hi (by simp [Pc.pend])
            · rw [if_neg ep, if_neg eq]; exact h.pend i t k hi
        total := by
          have := hsum s.sz rfl rfl
          dsimp only at this ⊢
          rw [this]; exact h.total
        grant := by
          intro l hl
          have h3 := h.grant l hl
          have h4 := hsum (cnt s.sz s.pc l) (cnt_of_none (by rw [e1]; rfl))
            (cnt_of_none (by rw [e2]; rfl))
          rw [← h4] at h3
          refine Nat.le_trans (Nat.le_of_eq ?_) h3
          dsimp only
          congr 1
          apply sumTo_congr
          intro i _
          by_cases ep : i = p
          · subst ep; simp [cnt]
          · by_cases eq : i = q
            · subst eq; simp [cnt, hne, e1, e2, Pc.pend]
            · simp [cnt, ep, eq]
        waiting := h.waiting
        evicting := h.evicting
        ownerLt := h.ownerLt
        owner := h.owner }
  · exact h

theorem sums_hand {q p : Nat} (h : Sums c s) : Sums c (hand s q p) := by
  unfold hand
  split <;> (try split) <;>
    first | exact h | exact sums_same h rfl rfl rfl rfl rfl rfl rfl

theorem sums_lose {x : Nat} (h : Sums c s) : Sums c (lose s x) := by
  unfold lose
  split <;> first | exact h | exact sums_same h rfl rfl rfl rfl rfl rfl rfl

theorem sums_umStart {cl : Bool} (h : Sums c s) : Sums c (umStart s cl) := by
  unfold umStart
  split <;> first | exact h | exact sums_same h rfl rfl rfl rfl rfl rfl rfl

/-- `writtenLocation`, `writeInProgressLocation` increase. -/
theorem sums_up (h : Sums c s) (e1 : s'.used = s.used) (e2 : s'.adv = s.adv)
    (e3 : s.written ≤ s'.written) (e4 : s.wip ≤ s'.wip) (e5 : s'.sz = s.sz) (e6 : s'.pc = s.pc)
    (e7 : ∀ e, s.ev = some e → ∃ e', s'.ev = some e' ∧ e'.owner = e.owner ∧ e'.target = e.target)
    (e8 : s.ev = none → s'.ev = none) : Sums c s' :=
  { pend := by rw [e5, e6]; exact h.pend
    total := by rw [e1, e2, e5]; exact h.total
    grant := by
      intro l hl
      rw [e1, e5, e6]; exact h.grant l (by omega)
    waiting := by
      intro p t k hp
      rw [e6] at hp
      have := h.waiting p t k hp
      omega
    evicting := by
      intro p t k hp
      rw [e6] at hp
      obtain ⟨e, h1, h2, h3⟩ := h.evicting p t k hp
      obtain ⟨e', h4, h5, h6⟩ := e7 e h1
      exact ⟨e', h4, h5.trans h2, by rw [h6]; exact h3⟩
    ownerLt := by
      intro e' he
      cases h1 : s.ev with
      | none => rw [e8 h1] at he; exact absurd he (by simp)
      | some e =>
        obtain ⟨e'', h4, h5, h6⟩ := e7 e h1
        rw [h4] at he; cases he
        rw [h5]; exact h.ownerLt e h1
    owner := by
      intro e' he
      cases h1 : s.ev with
      | none => rw [e8 h1] at he; exact absurd he (by simp)
      | some e =>
        obtain ⟨e'', h4, h5, h6⟩ := e7 e h1
        rw [h4] at he; cases he
        rw [e6, h5]; exact h.owner e h1 }

theorem sums_umGo (hb : Base c s) (h : Sums c s) : Sums c (umGo c s) := by
  have hr := hb.marks.umRaise
  have hw := hb.marks.wWip
  unfold umGo
  split
  · exact h
  · rename_i u hu
    split <;> (try split) <;>
      first
      | exact h
      | (refine sums_up h rfl rfl ?_ ?_ rfl rfl (fun e he => ⟨e, he, rfl, rfl⟩) (fun h => h) <;>
          (dsimp only; grind))

/-- An eviction ends. -/
theorem sums_evDone {e : Ev} {um : Option Um} {w : Nat} (h : Sums c s) (he : s.ev = some e)
    (hown : e.owner < c.procs) (hw : s.written ≤ w) (ht : e.target ≤ w) :
    Sums c
      { evDone s e with
        um := um
        written := w } := by
  have hcnt : ∀ l q, w + c.size ≤ l →
      cnt s.sz (upd s.pc e.owner .idle) l q = cnt s.sz s.pc l q := by
    intro l q hl
    by_cases e1 : q = e.owner
    · subst e1
      rw [cnt_of_none (by rw [upd_self]; rfl)]
      rcases h.owner e he with h1 | ⟨t, k, h1⟩
      · rw [cnt_of_none (by rw [h1]; rfl)]
      · obtain ⟨e', h2, _, h3⟩ := h.evicting _ _ _ h1
        rw [he] at h2; cases h2
        unfold cnt
        rw [h1]
        simp only [Pc.pend]
        rw [if_neg (by omega)]
        rfl
    · exact cnt_congr rfl (upd_ne e1)
  unfold evDone
  exact
    { pend := by
        intro q t k hq
        dsimp only at hq
        by_cases e1 : q = e.owner
        · subst e1; rw [upd_self] at hq; exact absurd hq (by simp [Pc.pend])
        · rw [upd_ne e1] at hq; exact h.pend q t k hq
      total := h.total
      grant := by
        intro l hl
        dsimp only at hl ⊢
        rw [sumTo_congr c.procs (fun q _ => hcnt l q hl)]
        exact h.grant l (by omega)
      waiting := by
        intro q t k hq
        dsimp only at hq
        by_cases e1 : q = e.owner
        · subst e1; rw [upd_self] at hq; exact absurd hq (by simp)
        · rw [upd_ne e1] at hq; exact h.waiting q t k hq
      evicting := by
        intro q t k hq
        dsimp only at hq
        by_cases e1 : q = e.owner
        · subst e1; rw [upd_self] at hq; exact absurd hq (by simp)
        · rw [upd_ne e1] at hq
          obtain ⟨e', h2, h4, _⟩ := h.evicting _ _ _ hq
          rw [he] at h2; cases h2
          exact absurd h4.symm e1
      ownerLt := by intro e' he'; exact absurd he' (by simp)
      owner := by intro e' he'; exact absurd he' (by simp) }

theorem sums_evGo (hb : Base c s) (h : Sums c s) : Sums c (evGo c s) := by
  have hown := h.ownerLt
  have hm := hb.marks
  unfold evGo
  split
  · exact h
  · rename_i e he
    split
    · split
      · exact sums_up h rfl rfl (Nat.le_refl _) (Nat.le_refl _) rfl rfl
          (fun e1 h1 => ⟨_, rfl, by rw [he] at h1; cases h1; rfl, by rw [he] at h1; cases h1; rfl⟩)
          (fun h1 => by rw [he] at h1; exact absurd h1 (by simp))
      · exact h
    · rename_i hpc
      have h3 := hm.evNoTgt e he (by rw [hpc]; rfl) (by rw [hpc]; simp)
      split
      · split
        · exact h
        · split
          · split
            · refine sums_up h rfl rfl (Nat.le_refl _) ?_ rfl rfl
                (fun e1 h1 => ⟨_, rfl, by rw [he] at h1; cases h1; rfl, by rw [he] at h1; cases h1; rfl⟩)
                (fun h1 => by rw [he] at h1; exact absurd h1 (by simp))
              dsimp only; omega
            · exact sums_evDone (w := s.written) h he (hown e he) (Nat.le_refl _) (by omega)
          · refine sums_up h rfl rfl (Nat.le_refl _) ?_ rfl rfl
                (fun e1 h1 => ⟨_, rfl, by rw [he] at h1; cases h1; rfl, by rw [he] at h1; cases h1; rfl⟩)
                (fun h1 => by rw [he] at h1; exact absurd h1 (by simp))
            have := hm.evTarget e he
            dsimp only; omega
      · exact h
    · rename_i hpc
      have h3 := hm.evEarly e he hpc
      have h4 := hm.wWip
      exact sums_evDone h he (hown e he) (by omega) (by omega)
    all_goals rename_i hpc
    all_goals (try split) <;> (try split) <;> first
      | exact h
      | exact sums_up h rfl rfl (Nat.le_refl _) (Nat.le_refl _) rfl rfl
          (fun e1 h1 => ⟨_, rfl, by rw [he] at h1; cases h1; rfl, by rw [he] at h1; cases h1; rfl⟩)
          (fun h1 => by rw [he] at h1; exact absurd h1 (by simp))
      | (have h3 := hm.evTgt e _ he (by rw [hpc]; rfl)
         have h4 := hm.wWip
         exact sums_evDone (um := s.um) h he (hown e he) (by omega) (by omega))

end Verif.UndoLog
