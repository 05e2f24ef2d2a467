import Verif.UndoLog.StepProc

/-!
# Nothing passes the location of a record that is being allocated or filled
-/

namespace Verif.UndoLog

variable {c : Cfg} {s s' : St}

theorem ret_used (h : Marks c s) : s.minRet ≤ s.used := by
  by_cases e : ∃ u b, s.um = some u ∧ u.pc = .pub3 b
  · obtain ⟨u, b, e1, e2⟩ := e
    have h1 := h.umPub3 u b e1 e2
    have h2 := h.umB u b e1 (by rw [e2]; rfl)
    have h3 := h.trUsed
    omega
  · have h1 := h.retTr (fun u b e1 e2 => e ⟨u, b, e1, e2⟩)
    have h3 := h.trUsed
    omega

theorem cb_of_ca {u : UmPc} {a : Nat} (h : u.ca = some a) : ∃ b, u.cb = some b := by
  cases u <;> simp_all [UmPc.ca, UmPc.cb]

theorem umA_used (h : Marks c s) {u : Um} {a : Nat} (e1 : s.um = some u) (e2 : u.pc.ca = some a) :
    a ≤ s.used := by
  obtain ⟨b, e3⟩ := cb_of_ca e2
  exact Nat.le_trans (h.umA u a b e1 e2 e3) (h.umB u b e1 e3)

/-- The next location to be used is safe. -/
theorem pin_used {q l t : Nat} (h : Base c s) (h1 : s.res q = some l) (h2 : s.tr q = some t) :
    Pin s q s.used :=
  { res := ⟨l, h1, (h.proc q).ownRes l h1⟩
    tr := ⟨t, h2, (h.proc q).own t h2⟩
    minRes := h.marks.resUsed
    minRet := ret_used h.marks
    wip := h.marks.wipUsed
    held := fun p m hm => (h.proc p).held m hm
    ev := h.marks.evM
    umX := fun u y e1 e2 _ => h.marks.umX u y e1 e2
    umA := fun u a e1 e2 _ => umA_used h.marks e1 e2 }

theorem Pin.keep {q x : Nat} (h : Pin s q x) (e : s'.core = s.core)
    (hheld : ∀ i m, (s'.pc i).heldM = some m → (s.pc i).heldM = some m ∨ m ≤ s.minRes)
    (h2 : s'.res q = s.res q) (h3 : s'.tr q = s.tr q) : Pin s' q x := by
  obtain ⟨e1, e2, e3, e4, e5, e6, e7, e8⟩ := core_eqs e
  exact
    { res := by rw [h2]; exact h.res
      tr := by rw [h3]; exact h.tr
      minRes := by rw [e3]; exact h.minRes
      minRet := by rw [e4]; exact h.minRet
      wip := by rw [e2]; exact h.wip
      held := fun p m hm => by
        rcases hheld p m hm with h' | h'
        · exact h.held p m h'
        · exact Nat.le_trans h' h.minRes
      ev := by rw [e8]; exact h.ev
      umX := by rw [e7]; exact h.umX
      umA := by rw [e7]; exact h.umA }

/-- A step that leaves pinned processes alone. -/
theorem pin_keep (h : Base c s) (e : s'.core = s.core)
    (hheld : ∀ i m, (s'.pc i).heldM = some m → (s.pc i).heldM = some m ∨ m ≤ s.minRes)
    (hpin : ∀ q x, (s'.pc q).pinLoc = some x →
      (s.pc q).pinLoc = some x ∧ s'.res q = s.res q ∧ s'.tr q = s.tr q) :
    ∀ q x, (s'.pc q).pinLoc = some x → q < c.procs ∧ Pin s' q x := by
  intro q x hx
  obtain ⟨h1, h2, h3⟩ := hpin q x hx
  obtain ⟨hq, h⟩ := h.pin q x h1
  exact ⟨hq, h.keep e hheld h2 h3⟩

/-- A step of process `p` alone. -/
theorem pin_one {p : Nat} (h : Base c s) (e : s'.core = s.core)
    (hpc : ∀ q, q ≠ p → s'.pc q = s.pc q) (htr : ∀ q, q ≠ p → s'.tr q = s.tr q)
    (hres : ∀ q, q ≠ p → s'.res q = s.res q)
    (hheld : ∀ m, (s'.pc p).heldM = some m → (s.pc p).heldM = some m ∨ m ≤ s.minRes)
    (hpin : ∀ x, (s'.pc p).pinLoc = some x →
      (s.pc p).pinLoc = some x ∧ s'.res p = s.res p ∧ s'.tr p = s.tr p) :
    ∀ q x, (s'.pc q).pinLoc = some x → q < c.procs ∧ Pin s' q x := by
  refine pin_keep h e ?_ ?_
  · intro i m hm
    by_cases e : i = p
    · subst e; exact hheld m hm
    · rw [hpc i e] at hm; exact .inl hm
  · intro q x hx
    by_cases e : q = p
    · subst e; exact hpin x hx
    · rw [hpc q e] at hx; exact ⟨hx, hres q e, htr q e⟩

/-- The pins. -/
def Pins (c : Cfg) (s : St) : Prop :=
  ∀ q x, (s.pc q).pinLoc = some x → q < c.procs ∧ Pin s q x

theorem pin_attempt {p n : Nat} {r : Pc} (h : Base c s) (hp : p < c.procs)
    (hr : ∀ m, r.heldM ≠ some m)
    (hrp : ∀ x, s.used % c.size < (s.used + n) % c.size ∨ (r.pinLoc = some x → x = s.used))
    (hres : ∃ l, s.res p = some l) (htr : ∃ l, s.tr p = some l) :
    Pins c (attempt c s p n r) := by
  obtain ⟨l, hl⟩ := hres
  obtain ⟨t, ht⟩ := htr
  unfold attempt
  split
  · exact pin_one (p := p) h rfl (fun q hq => upd_ne hq) (fun _ _ => rfl) (fun _ _ => rfl)
      (by simp [to, upd_self, Pc.heldM]) (by simp [to, upd_self, Pc.pinLoc])
  · have key : ∀ pc' : Pc, (∀ m, pc'.heldM ≠ some m) → (∀ x, pc'.pinLoc = some x → x = s.used) →
        ∀ s'' : St, s''.core = s.core → s''.pc = upd s.pc p pc' → s''.res = s.res →
          s''.tr = s.tr → Pins c s'' := by
      intro pc' h1 h2 s'' e1 e2 e3 e4 q x hx
      have hheld : ∀ i m, (s''.pc i).heldM = some m → (s.pc i).heldM = some m ∨ m ≤ s.minRes := by
        intro i m hm
        rw [e2] at hm
        by_cases e : i = p
        · subst e; rw [upd_self] at hm; exact absurd hm (h1 m)
        · rw [upd_ne e] at hm; exact .inl hm
      by_cases e : q = p
      · subst e
        rw [e2, upd_self] at hx
        have := h2 x hx
        subst this
        exact ⟨hp, (pin_used h hl ht).keep e1 hheld (by rw [e3]) (by rw [e4])⟩
      · rw [e2, upd_ne e] at hx
        obtain ⟨hq, hpin⟩ := h.pin q x hx
        exact ⟨hq, hpin.keep e1 hheld (by rw [e3]) (by rw [e4])⟩
    split
    · exact key (.fill s.used n 0) (by simp [Pc.heldM])
        (fun x hx => by simp [Pc.pinLoc] at hx; exact hx.symm) _ rfl rfl rfl rfl
    · rename_i hno
      exact key r hr (fun x hx => (hrp x).elim (fun h => absurd h hno) (fun h => h hx)) _
        rfl rfl rfl rfl

theorem pin_evictStart {p t m : Nat} {pc : Pc} (h : Base c s)
    (hheld : (s.pc p).heldM = some m) (h1 : pc.heldM = none) (h2 : pc.pinLoc = none) :
    Pins c (evictStart s p t m pc) := by
  intro q x hx
  unfold evictStart at hx ⊢
  by_cases e : q = p
  · subst e; simp only [upd_self, h2] at hx; exact absurd hx (by simp)
  · simp only [upd_ne e] at hx
    obtain ⟨hq, hp⟩ := h.pin q x hx
    refine ⟨hq, hp.res, hp.tr, hp.minRes, hp.minRet, hp.wip, ?_, ?_, hp.umX, hp.umA⟩
    · intro i m' hm
      by_cases e : i = p
      · subst e; simp only [upd_self, h1] at hm; exact absurd hm (by simp)
      · simp only [upd_ne e] at hm; exact hp.held i m' hm
    · intro e' he
      cases he
      exact hp.held p m hheld

set_option maxHeartbeats 4000000 in
theorem pin_go {p : Nat} (h : Base c s) (hp : p < c.procs)
    (hag : ∀ n l, s.pc p = .again n l → s.used % c.size < (s.used + n) % c.size) :
    Pins c (go c s p) := by
  have hpp := h.proc p
  unfold go
  split
  all_goals try exact h.pin
  all_goals rename_i hpc; rw [hpc] at hpp
  all_goals first
    | exact pin_attempt (r := .again _ s.used) h hp (by simp [Pc.heldM])
        (fun x => .inr (fun hx => by simp [Pc.pinLoc] at hx; exact hx.symm))
        (hpp.hasRes rfl) (hpp.hasTr rfl)
    | exact pin_attempt h hp (by simp [Pc.heldM]) (fun x => .inl (hag _ _ hpc))
        (hpp.hasRes rfl) (hpp.hasTr rfl)
    | skip
  all_goals (try split)
  all_goals first
    | exact h.pin
    | exact pin_evictStart h (by rw [hpc]; rfl) rfl rfl
    | skip
  all_goals
    refine pin_one (p := p) h rfl (fun q hq => upd_ne hq) ?_ ?_ ?_ ?_
  all_goals first
    | exact fun q hq => rfl
    | exact fun q hq => upd_ne hq
    | skip
  all_goals (try simp only [to, upd_self])
  all_goals (rw [hpc]; grind [Pc.heldM, Pc.pinLoc, upd])

theorem pin_reserve {p k : Nat} (h : Base c s) : Pins c (reserve s p k) := by
  unfold reserve
  split <;> (try exact h.pin)
  all_goals (try split) <;> (try split)
  all_goals first
    | exact h.pin
    | (refine pin_one (p := p) h rfl ?_ ?_ ?_ ?_ ?_
       all_goals first
         | exact fun q hq => rfl
         | exact fun q hq => upd_ne hq
         | skip
       all_goals (try simp only [to, upd_self])
       all_goals (simp only [*]; grind [Pc.heldM, Pc.pinLoc]))
    | exact pin_keep h rfl (fun _ _ h => .inl h) (fun _ _ h => ⟨h, rfl, rfl⟩)

theorem pin_giveUp {p : Nat} (h : Base c s) : Pins c (giveUp s p) := by
  unfold giveUp
  split <;> (try exact h.pin)
  all_goals (try split) <;> (try split)
  all_goals first
    | exact h.pin
    | (refine pin_one (p := p) h rfl ?_ ?_ ?_ ?_ ?_
       all_goals first
         | exact fun q hq => rfl
         | exact fun q hq => upd_ne hq
         | skip
       all_goals (try simp only [to, upd_self])
       all_goals (simp only [*]; grind [Pc.heldM, Pc.pinLoc]))
    | exact pin_keep h rfl (fun _ _ h => .inl h) (fun _ _ h => ⟨h, rfl, rfl⟩)

theorem pin_releaseSize {p : Nat} (h : Base c s) : Pins c (releaseSize s p) := by
  unfold releaseSize
  split <;> (try exact h.pin)
  all_goals (try split) <;> (try split)
  all_goals first
    | exact h.pin
    | (refine pin_one (p := p) h rfl ?_ ?_ ?_ ?_ ?_
       all_goals first
         | exact fun q hq => rfl
         | exact fun q hq => upd_ne hq
         | skip
       all_goals (try simp only [to, upd_self])
       all_goals (simp only [*]; grind [Pc.heldM, Pc.pinLoc]))
    | exact pin_keep h rfl (fun _ _ h => .inl h) (fun _ _ h => ⟨h, rfl, rfl⟩)

theorem pin_bg {p k : Nat} (h : Base c s) : Pins c (bg s p k) := by
  unfold bg
  split <;> (try exact h.pin)
  all_goals (try split) <;> (try split)
  all_goals first
    | exact h.pin
    | (refine pin_one (p := p) h rfl ?_ ?_ ?_ ?_ ?_
       all_goals first
         | exact fun q hq => rfl
         | exact fun q hq => upd_ne hq
         | skip
       all_goals (try simp only [to, upd_self])
       all_goals (simp only [*]; grind [Pc.heldM, Pc.pinLoc]))
    | exact pin_keep h rfl (fun _ _ h => .inl h) (fun _ _ h => ⟨h, rfl, rfl⟩)

theorem pin_get {p k : Nat} (h : Base c s) : Pins c (get c s p k) := by
  unfold get
  split <;> (try exact h.pin)
  all_goals (try split) <;> (try split)
  all_goals first
    | exact h.pin
    | (refine pin_one (p := p) h rfl ?_ ?_ ?_ ?_ ?_
       all_goals first
         | exact fun q hq => rfl
         | exact fun q hq => upd_ne hq
         | skip
       all_goals (try simp only [to, upd_self])
       all_goals (simp only [*]; grind [Pc.heldM, Pc.pinLoc]))
    | exact pin_keep h rfl (fun _ _ h => .inl h) (fun _ _ h => ⟨h, rfl, rfl⟩)

theorem pin_put {p k : Nat} (h : Base c s) : Pins c (put c s p k) := by
  unfold put
  split <;> (try exact h.pin)
  all_goals (try split) <;> (try split)
  all_goals first
    | exact h.pin
    | (refine pin_one (p := p) h rfl ?_ ?_ ?_ ?_ ?_
       all_goals first
         | exact fun q hq => rfl
         | exact fun q hq => upd_ne hq
         | skip
       all_goals (try simp only [to, upd_self])
       all_goals (simp only [*]; grind [Pc.heldM, Pc.pinLoc]))
    | exact pin_keep h rfl (fun _ _ h => .inl h) (fun _ _ h => ⟨h, rfl, rfl⟩)

theorem pin_release {p : Nat} (h : Base c s) : Pins c (release s p) := by
  unfold release
  split <;> (try exact h.pin)
  all_goals (try split) <;> (try split)
  all_goals first
    | exact h.pin
    | (refine pin_one (p := p) h rfl ?_ ?_ ?_ ?_ ?_
       all_goals first
         | exact fun q hq => rfl
         | exact fun q hq => upd_ne hq
         | skip
       all_goals (try simp only [to, upd_self])
       all_goals (simp only [*]; grind [Pc.heldM, Pc.pinLoc]))
    | exact pin_keep h rfl (fun _ _ h => .inl h) (fun _ _ h => ⟨h, rfl, rfl⟩)

theorem pin_queue {p : Nat} (h : Base c s) : Pins c (queue s p) := by
  unfold queue
  split <;> (try exact h.pin)
  all_goals (try split) <;> (try split)
  all_goals first
    | exact h.pin
    | (refine pin_one (p := p) h rfl ?_ ?_ ?_ ?_ ?_
       all_goals first
         | exact fun q hq => rfl
         | exact fun q hq => upd_ne hq
         | skip
       all_goals (try simp only [to, upd_self])
       all_goals (simp only [*]; grind [Pc.heldM, Pc.pinLoc]))
    | exact pin_keep h rfl (fun _ _ h => .inl h) (fun _ _ h => ⟨h, rfl, rfl⟩)

theorem pin_wake {p : Nat} (h : Base c s) : Pins c (wake s p) := by
  unfold wake
  split <;> (try exact h.pin)
  all_goals (try split) <;> (try split)
  all_goals first
    | exact h.pin
    | (refine pin_one (p := p) h rfl ?_ ?_ ?_ ?_ ?_
       all_goals first
         | exact fun q hq => rfl
         | exact fun q hq => upd_ne hq
         | skip
       all_goals (try simp only [to, upd_self])
       all_goals (simp only [*]; grind [Pc.heldM, Pc.pinLoc]))
    | exact pin_keep h rfl (fun _ _ h => .inl h) (fun _ _ h => ⟨h, rfl, rfl⟩)

theorem pin_free {p : Nat} (h : Base c s) : Pins c (free s p) := by
  unfold free
  split <;> (try exact h.pin)
  all_goals (try split) <;> (try split)
  all_goals first
    | exact h.pin
    | (refine pin_one (p := p) h rfl ?_ ?_ ?_ ?_ ?_
       all_goals first
         | exact fun q hq => rfl
         | exact fun q hq => upd_ne hq
         | skip
       all_goals (try simp only [to, upd_self])
       all_goals (simp only [*]; grind [Pc.heldM, Pc.pinLoc]))
    | exact pin_keep h rfl (fun _ _ h => .inl h) (fun _ _ h => ⟨h, rfl, rfl⟩)

theorem pin_snap {p : Nat} (h : Base c s) : Pins c (snap s p) := by
  unfold snap
  split <;> (try exact h.pin)
  all_goals (try split) <;> (try split)
  all_goals first
    | exact h.pin
    | (refine pin_one (p := p) h rfl ?_ ?_ ?_ ?_ ?_
       all_goals first
         | exact fun q hq => rfl
         | exact fun q hq => upd_ne hq
         | skip
       all_goals (try simp only [to, upd_self])
       all_goals (simp only [*]; grind [Pc.heldM, Pc.pinLoc]))
    | exact pin_keep h rfl (fun _ _ h => .inl h) (fun _ _ h => ⟨h, rfl, rfl⟩)

theorem pin_drop {p k : Nat} (h : Base c s) : Pins c (drop s p k) := by
  unfold drop
  split <;> (try exact h.pin)
  all_goals (try split) <;> (try split)
  all_goals first
    | exact h.pin
    | (refine pin_one (p := p) h rfl ?_ ?_ ?_ ?_ ?_
       all_goals first
         | exact fun q hq => rfl
         | exact fun q hq => upd_ne hq
         | skip
       all_goals (try simp only [to, upd_self])
       all_goals (simp only [*]; grind [Pc.heldM, Pc.pinLoc]))
    | exact pin_keep h rfl (fun _ _ h => .inl h) (fun _ _ h => ⟨h, rfl, rfl⟩)

theorem pin_reset {p : Nat} (h : Base c s) : Pins c (reset s p) := by
  unfold reset
  split <;> (try exact h.pin)
  all_goals (try split) <;> (try split)
  all_goals first
    | exact h.pin
    | (refine pin_one (p := p) h rfl ?_ ?_ ?_ ?_ ?_
       all_goals first
         | exact fun q hq => rfl
         | exact fun q hq => upd_ne hq
         | skip
       all_goals (try simp only [to, upd_self])
       all_goals (simp only [*]; grind [Pc.heldM, Pc.pinLoc]))
    | exact pin_keep h rfl (fun _ _ h => .inl h) (fun _ _ h => ⟨h, rfl, rfl⟩)

theorem pin_clearMy {p : Nat} (h : Base c s) : Pins c (clearMy s p) := by
  unfold clearMy
  split <;> (try exact h.pin)
  all_goals (try split) <;> (try split)
  all_goals first
    | exact h.pin
    | (refine pin_one (p := p) h rfl ?_ ?_ ?_ ?_ ?_
       all_goals first
         | exact fun q hq => rfl
         | exact fun q hq => upd_ne hq
         | skip
       all_goals (try simp only [to, upd_self])
       all_goals (simp only [*]; grind [Pc.heldM, Pc.pinLoc]))
    | exact pin_keep h rfl (fun _ _ h => .inl h) (fun _ _ h => ⟨h, rfl, rfl⟩)

theorem pin_write {p k : Nat} {vs : List Nat} (h : Base c s) : Pins c (write c s p k vs) := by
  unfold write
  split <;> (try exact h.pin)
  all_goals (try split) <;> (try split)
  all_goals first
    | exact h.pin
    | (refine pin_one (p := p) h rfl ?_ ?_ ?_ ?_ ?_
       all_goals first
         | exact fun q hq => rfl
         | exact fun q hq => upd_ne hq
         | skip
       all_goals (try simp only [to, upd_self])
       all_goals (simp only [*]; grind [Pc.heldM, Pc.pinLoc]))
    | exact pin_keep h rfl (fun _ _ h => .inl h) (fun _ _ h => ⟨h, rfl, rfl⟩)

theorem pin_read {p k n : Nat} (h : Base c s) : Pins c (read c s p k n) := by
  unfold read
  split <;> (try exact h.pin)
  all_goals (try split) <;> (try split)
  all_goals first
    | exact h.pin
    | (refine pin_one (p := p) h rfl ?_ ?_ ?_ ?_ ?_
       all_goals first
         | exact fun q hq => rfl
         | exact fun q hq => upd_ne hq
         | skip
       all_goals (try simp only [to, upd_self])
       all_goals (simp only [*]; grind [Pc.heldM, Pc.pinLoc]))
    | exact pin_keep h rfl (fun _ _ h => .inl h) (fun _ _ h => ⟨h, rfl, rfl⟩)

theorem pin_steal {q p : Nat} (h : Base c s) : Pins c (steal s q p) := by
  unfold steal
  split
  · exact pin_keep h rfl (fun _ _ h => .inl h) (fun _ _ h => ⟨h, rfl, rfl⟩)
  · exact h.pin

theorem pin_hand {q p : Nat} (h : Base c s) : Pins c (hand s q p) := by
  unfold hand
  split
  · split
    · rename_i loc n e1 e2 hl
      refine pin_keep h rfl (fun _ _ h => .inl h) (fun i x hx => ⟨hx, rfl, ?_⟩)
      have : i ≠ p := by
        intro e; subst e
        dsimp only at hx
        rw [e2] at hx; exact absurd hx (by simp [Pc.pinLoc])
      exact upd_ne this
    · exact h.pin
  · exact h.pin

theorem pin_lose {x : Nat} (h : Base c s) : Pins c (lose s x) := by
  unfold lose
  split
  · exact pin_keep h rfl (fun _ _ h => .inl h) (fun _ _ h => ⟨h, rfl, rfl⟩)
  · exact h.pin

theorem pin_umStart {cl : Bool} (h : Base c s) : Pins c (umStart s cl) := by
  unfold umStart
  split
  · intro q x hx
    obtain ⟨hq, hp⟩ := h.pin q x hx
    refine ⟨hq, hp.res, hp.tr, hp.minRes, hp.minRet, hp.wip, hp.held, hp.ev, ?_, ?_⟩
    · intro u y e1 e2; cases e1; simp [UmPc.cx] at e2
    · intro u y e1 e2; cases e1; simp [UmPc.ca] at e2
  · exact h.pin

theorem minOpt_at {f : Nat → Option Nat} {q i l x y : Nat} (h : f q = some l) (hl : l ≤ x)
    (hq : q ≤ i) (hlt : q < i → y ≤ x) : minOpt y (f i) ≤ x := by
  by_cases e : q = i
  · subst e; exact Nat.le_trans (minOpt_le_some h) hl
  · exact Nat.le_trans minOpt_le (hlt (by omega))

set_option maxHeartbeats 4000000 in
theorem pin_umGo (h : Base c s) : Pins c (umGo c s) := by
  intro q x hx
  have hx' : (s.pc q).pinLoc = some x := by
    revert hx
    unfold umGo
    split
    · exact id
    · split <;> (try split) <;> exact id
  obtain ⟨hq, hp⟩ := h.pin q x hx'
  clear hx
  refine ⟨hq, ?_⟩
  unfold umGo
  split
  · exact hp
  · rename_i u hu
    have hr := h.marks.umRaise
    have h1 := hp.umX
    have h2 := hp.umA
    obtain ⟨l1, h3, h4⟩ := hp.res
    obtain ⟨l2, h5, h6⟩ := hp.tr
    have h7 := hp.minRet
    have h8 : ∀ i y, q ≤ i → (q < i → y ≤ x) → minOpt y (s.res i) ≤ x :=
      fun i y a b => minOpt_at h3 h4 a b
    have h9 : ∀ i y, q ≤ i → (q < i → y ≤ x) → minOpt y (s.tr i) ≤ x :=
      fun i y a b => minOpt_at h5 h6 a b
    split <;> (try split) <;> first
      | exact hp
      | (constructor <;> first
          | exact hp.res | exact hp.tr | exact hp.minRes | exact hp.minRet | exact hp.wip
          | exact hp.held | exact hp.ev
          | (clear h hp
             grind [UmPc.cx, UmPc.ca, UmPc.resSeen, UmPc.trSeen, minOpt_le, minOpt_le_some]))

theorem pin_evDone {e : Ev} {um : Option Um} {w : Nat} (h : Base c s)
    (hum : um = none ∨ um = s.um) :
    Pins c
      { evDone s e with
        um := um
        written := w } := by
  intro q x hx
  unfold evDone at hx ⊢
  dsimp only at hx ⊢
  by_cases e1 : q = e.owner
  · subst e1; rw [upd_self] at hx; simp [Pc.pinLoc] at hx
  · rw [upd_ne e1] at hx
    obtain ⟨hq, hp⟩ := h.pin q x hx
    refine ⟨hq, hp.res, hp.tr, hp.minRes, hp.minRet, hp.wip, ?_, ?_, ?_, ?_⟩
    · intro i m hm
      dsimp only at hm
      by_cases e2 : i = e.owner
      · subst e2; rw [upd_self] at hm; simp [Pc.heldM] at hm
      · rw [upd_ne e2] at hm; exact hp.held i m hm
    · intro e' he; simp at he
    · rcases hum with rfl | rfl
      · intro u y e1; simp at e1
      · exact hp.umX
    · rcases hum with rfl | rfl
      · intro u y e1; simp at e1
      · exact hp.umA

set_option maxHeartbeats 4000000 in
theorem pin_evGo (h : Base c s) : Pins c (evGo c s) := by
  unfold evGo
  split
  · exact h.pin
  · rename_i e he
    split
    · split
      · intro q x hx
        obtain ⟨hq, hp⟩ := h.pin q x hx
        refine ⟨hq, hp.res, hp.tr, hp.minRes, hp.minRet, hp.wip, hp.held, ?_, ?_, ?_⟩
        · intro e' he'; cases he'; exact hp.ev e he
        · intro u y e1 e2; cases e1; simp [UmPc.cx] at e2
        · intro u y e1 e2; cases e1; simp [UmPc.ca] at e2
      · exact h.pin
    · split
      · split
        · exact h.pin
        · split
          · split
            · intro q x hx
              obtain ⟨hq, hp⟩ := h.pin q x hx
              refine ⟨hq, hp.res, hp.tr, hp.minRes, hp.minRet, hp.minRet, hp.held, ?_, hp.umX,
                hp.umA⟩
              intro e' he'; cases he'; exact hp.ev e he
            · exact pin_evDone (w := s.written) h (.inl rfl)
          · intro q x hx
            obtain ⟨hq, hp⟩ := h.pin q x hx
            have := hp.ev e he
            refine ⟨hq, hp.res, hp.tr, hp.minRes, hp.minRet, ?_, hp.held, ?_, ?_, ?_⟩
            · dsimp only; omega
            · intro e' he'; cases he'; exact this
            · intro u y e1; simp at e1
            · intro u y e1; simp at e1
      · exact h.pin
    · exact pin_evDone h (.inl rfl)
    all_goals (try split) <;> (try split) <;> first
      | exact h.pin
      | (rename_i hum; exact pin_evDone (um := s.um) h (.inr rfl))
      | (intro q x hx
         obtain ⟨hq, hp⟩ := h.pin q x hx
         refine ⟨hq, hp.res, hp.tr, hp.minRes, hp.minRet, hp.wip, hp.held, ?_, hp.umX, hp.umA⟩
         intro e' he'; cases he'; exact hp.ev e he)

end Verif.UndoLog
