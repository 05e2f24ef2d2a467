import Verif.Snapshots.Inv

/-!
# Transactions keep the invariant
-/

namespace Verif.Snapshots

variable {N : Nat} {s s' : St}

@[simp] theorem upd_same {α : Type} {f : Nat → α} {i : Nat} {v : α} : upd f i v i = v := if_pos rfl

theorem upd_other {α : Type} {f : Nat → α} {i j : Nat} {v : α} (h : j ≠ i) : upd f i v j = f j :=
  if_neg h

/-- Time goes on. -/
def tick (s : St) : St := { s with clock := s.clock + 1 }

theorem below_congr {S x : Nat} (h1 : ∀ n, n < S → (s'.st x = .committed n ↔ s.st x = .committed n))
    (h2 : ∀ p n, n < S → (s'.tx p = .numbered x n ↔ s.tx p = .numbered x n)) :
    below s' S x ↔ below s S x := by
  unfold below
  constructor
  · rintro ⟨n, a, b | ⟨p, b⟩⟩
    · exact ⟨n, a, Or.inl ((h1 n a).1 b)⟩
    · exact ⟨n, a, Or.inr ⟨p, (h2 p n a).1 b⟩⟩
  · rintro ⟨n, a, b | ⟨p, b⟩⟩
    · exact ⟨n, a, Or.inl ((h1 n a).2 b)⟩
    · exact ⟨n, a, Or.inr ⟨p, (h2 p n a).2 b⟩⟩

theorem below_st (h : TxInv s) {S x : Nat} (hb : below s S x) :
    s.st x = .committing ∨ ∃ n, s.st x = .committed n := by
  obtain ⟨n, _, e | ⟨p, e⟩⟩ := hb
  · exact Or.inr ⟨n, e⟩
  · have := h.tx p
    rw [e] at this
    exact Or.inl this.1

theorem TxPc.ok_congr {s s' : St} {t : TxPc} (h1 : ∀ x, t.of = some x → s'.st x = s.st x)
    (h2 : s.nextCsn ≤ s'.nextCsn) (h : t.ok s) : t.ok s' := by
  cases t with
  | none => trivial
  | run x => exact (h1 x rfl).trans h
  | marked x => exact (h1 x rfl).trans h
  | numbered x n => exact ⟨(h1 x rfl).trans h.1, Nat.lt_of_lt_of_le h.2 h2⟩
  | undoing x => exact (h1 x rfl).trans h
  | late x => exact h

/-- A step of the session `p` in the transaction `x`, which is not finished before.
`after` is where the session is then. -/
theorem TxInv.own_step (h : TxInv s) {p x : Nat} {after : TxPc} {v : Status} {ks : List Nat}
    (hx : (s.tx p).of = some x)
    (hrun : s'.runXmin = s.runXmin) (hnext : s'.next = s.next) (hglob : s'.glob = s.glob)
    (hcsn : s.nextCsn ≤ s'.nextCsn) (hclock : s'.clock = s.clock + 1)
    (hst : s'.st = upd s.st x v) (hchg : s'.chg = upd s.chg x ks) (htx : s'.tx = upd s.tx p after)
    (hv : v ≠ .none) (hof : after.of = some x ∨ after.of = Option.none) (hok : after.ok s')
    (hcom : ∀ n, v = .committed n → n < s'.nextCsn ∧ ∃ t, .commit t x ks ∈ s'.tr)
    (habt : v = .aborted → ks = [])
    (hev : ∀ t y l, .commit t y l ∈ s'.tr → .commit t y l ∈ s.tr ∨
      t = s.clock ∧ y = x ∧ l = ks ∧ ∃ n, v = .committed n)
    (hev' : ∀ e, e ∈ s.tr → e ∈ s'.tr)
    (hab : ∀ y, .abort y ∈ s'.tr → .abort y ∈ s.tr ∨ y = x ∧ v = .aborted) : TxInv s' := by
  have hnf : (s.st x).finished = false := by
    have := h.tx p
    revert this hx
    cases s.tx p <;> intro hx this <;> simp_all [TxPc.of, TxPc.ok, Status.finished]
  have hother : ∀ q, q ≠ p → ∀ y, (s.tx q).of = some y → y ≠ x :=
    fun q hq y hy e => hq (h.own q p x (e ▸ hy) hx)
  have hne : s.st x ≠ .none := by
    have := h.tx p
    revert this hx
    cases s.tx p <;> intro hx this <;> simp_all [TxPc.of, TxPc.ok]
  refine ⟨?_, ?_, ?_, ?_, ?_, ?_, ?_, ?_, ?_, ?_, ?_, ?_⟩
  · rw [hrun, hnext]
    exact h.runNext
  · intro y hy
    rw [hrun] at hy
    have := h.fin y hy
    rw [hst, upd_other (fun e => by rw [e, hnf] at this; cases this)]
    exact this
  · rw [hglob, hrun]
    exact h.globRun
  · intro y hy
    rw [hnext] at hy
    have := h.fut y hy
    rw [hst, upd_other (fun e => hne (by rw [← e]; exact this))]
    exact this
  · intro y hy
    rw [hst] at hy
    by_cases e : y = x
    · rw [e, upd_same] at hy
      exact (hv hy).elim
    · rw [upd_other e] at hy
      rw [hchg, upd_other e]
      exact h.none y hy
  · intro y n hy
    rw [hst] at hy
    by_cases e : y = x
    · rw [e, upd_same] at hy
      exact (hcom n hy).1
    · rw [upd_other e] at hy
      exact Nat.lt_of_lt_of_le (h.csn y n hy) hcsn
  · intro q
    rw [htx]
    by_cases e : q = p
    · rw [e, upd_same]
      exact hok
    · rw [upd_other e]
      refine TxPc.ok_congr (fun y hy => ?_) hcsn (h.tx q)
      rw [hst, upd_other (hother q e y hy)]
  · intro q q' y h1 h2
    rw [htx] at h1 h2
    by_cases e : q = p <;> by_cases e' : q' = p
    · rw [e, e']
    · rw [e, upd_same] at h1
      rw [upd_other e'] at h2
      rcases hof with hof | hof <;> rw [hof] at h1
      · cases h1
        exact (hother q' e' x h2 rfl).elim
      · cases h1
    · rw [e', upd_same] at h2
      rw [upd_other e] at h1
      rcases hof with hof | hof <;> rw [hof] at h2
      · cases h2
        exact (hother q e x h1 rfl).elim
      · cases h2
    · rw [upd_other e] at h1
      rw [upd_other e'] at h2
      exact h.own q q' y h1 h2
  · intro y hy
    rw [hst] at hy
    by_cases e : y = x
    · rw [e, upd_same] at hy
      rw [hchg, e, upd_same]
      exact habt hy
    · rw [upd_other e] at hy
      rw [hchg, upd_other e]
      exact h.abt y hy
  · intro t y l hl
    rcases hev t y l hl with hl | ⟨a, b, c, n, d⟩
    · obtain ⟨a, b, n, c⟩ := h.commit t y l hl
      have e : y ≠ x := fun e => by rw [e] at c; rw [c] at hnf; cases hnf
      rw [hchg, upd_other e, hst, upd_other e]
      exact ⟨by omega, b, n, c⟩
    · rw [hchg, b, upd_same, hst, upd_same]
      exact ⟨by omega, c, n, d⟩
  · intro y n hy
    rw [hst] at hy
    by_cases e : y = x
    · rw [e, upd_same] at hy
      rw [hchg, e, upd_same]
      exact Or.inr (hcom n hy).2
    · rw [upd_other e] at hy
      rw [hchg, upd_other e]
      rcases h.committed y n hy with a | ⟨t, a⟩
      · exact Or.inl a
      · exact Or.inr ⟨t, hev' _ a⟩
  · intro y hy
    rcases hab y hy with hy | ⟨a, b⟩
    · have := h.abort y hy
      have e : y ≠ x := fun e => by rw [e] at this; rw [this] at hnf; cases hnf
      rw [hst, upd_other e]
      exact this
    · rw [a, hst, upd_same]
      exact b

/-- Such a step, for snapshots. -/
theorem Evo.own_step (h : TxInv s) {p x : Nat} {after : TxPc} {v : Status} {ks : List Nat}
    (hx : (s.tx p).of = some x)
    (hrun : s'.runXmin = s.runXmin)
    (hcsn : s.nextCsn ≤ s'.nextCsn) (hclock : s'.clock = s.clock + 1) (hfinAt : s'.finAt = s.finAt)
    (hst : s'.st = upd s.st x v) (hchg : s'.chg = upd s.chg x ks) (htx : s'.tx = upd s.tx p after)
    (hks : ks = s.chg x ∨ s.st x = .running)
    (hb : ∀ S, S ≤ s.nextCsn → ∀ n, n < S →
      ((v = .committed n ∨ after = .numbered x n) ↔ s.tx p = .numbered x n))
    (hof : after.of = some x ∨ after.of = Option.none)
    (hev : ∀ t y l, .commit t y l ∈ s'.tr → .commit t y l ∈ s.tr ∨
      t = s.clock) : Evo s s' := by
  have hnf : (s.st x).finished = false := by
    have := h.tx p
    revert this hx
    cases s.tx p <;> intro hx this <;> simp_all [TxPc.of, TxPc.ok, Status.finished]
  have hother : ∀ q, q ≠ p → ∀ y, (s.tx q).of = some y → y ≠ x :=
    fun q hq y hy e => hq (h.own q p x (e ▸ hy) hx)
  refine ⟨?_, ?_, ?_, hcsn, by omega, fun t _ => by rw [hfinAt], hev, by omega⟩
  · intro y hy
    have e : y ≠ x := fun e => by rw [e, hnf] at hy; cases hy
    rw [hst, hchg, upd_other e, upd_other e]
    exact ⟨rfl, rfl⟩
  · intro S y hS
    by_cases e : y = x
    · rw [e]
      unfold Verif.Snapshots.below
      rw [hst, htx, upd_same]
      constructor
      · rintro ⟨n, a, b⟩
        refine ⟨n, a, Or.inr ⟨p, (hb S hS n a).1 ?_⟩⟩
        rcases b with b | ⟨q, b⟩
        · exact Or.inl b
        · by_cases e' : q = p
          · rw [e', upd_same] at b
            exact Or.inr b
          · rw [upd_other e'] at b
            exact (hother q e' x (by rw [b]; rfl) rfl).elim
      · rintro ⟨n, a, b⟩
        refine ⟨n, a, ?_⟩
        have : s.tx p = .numbered x n := by
          rcases b with b | ⟨q, b⟩
          · rw [b] at hnf
            cases hnf
          · by_cases e' : q = p
            · rw [← e']
              exact b
            · exact (hother q e' x (by rw [b]; rfl) rfl).elim
        rcases (hb S hS n a).2 this with c | c
        · exact Or.inl c
        · exact Or.inr ⟨p, by rw [upd_same]; exact c⟩
    · apply below_congr
      · intro n _
        rw [hst, upd_other e]
      · intro q n _
        rw [htx]
        by_cases e' : q = p
        · rw [e', upd_same]
          constructor
          · intro c
            rw [c] at hof
            rcases hof with hof | hof
            · cases hof
              exact (e rfl).elim
            · cases hof
          · intro c
            rw [c] at hx
            cases hx
            exact (e rfl).elim
        · rw [upd_other e']
  · intro S y _ hbl
    rw [hchg]
    by_cases e : y = x
    · rw [e, upd_same]
      rcases hks with hks | hks
      · exact hks
      · rcases below_st h hbl with a | ⟨n, a⟩ <;> rw [e, hks] at a <;> cases a
    · rw [upd_other e]

theorem upd_self {α : Type} {f : Nat → α} {i : Nat} : f = upd f i (f i) := by
  funext j
  unfold upd
  split
  · rename_i e
    rw [e]
  · rfl

/-- The invariant, after a step that leaves snapshots alone. -/
theorem Inv.of_tx (h : Inv N s) (ht : TxInv s') (e : Evo s s')
    (hpx : s'.pxmin = s.pxmin)
    (hadv : s'.adv = s.adv) (hglob : s'.glob = s.glob) (hrd : s'.rd = s.rd)
    (hfresh : s'.fresh = s.fresh) (hactive : s'.active = s.active) (hreg : s'.reg = s.reg)
    (htook : ∀ sn, .took sn ∈ s'.tr ↔ .took sn ∈ s.tr)
    (hlook : ∀ sn x k r, .look sn x k r ∈ s'.tr ↔ .look sn x k r ∈ s.tr) : Inv N s' :=
  ⟨ht, h.sess.frame e.run (Nat.le_of_lt e.clock) hpx hrd hfresh hactive hreg,
    h.sn.frame e hadv hglob hrd hfresh hactive hreg htook hlook⟩

theorem TxInv.same (h : TxInv s) (hrun : s'.runXmin = s.runXmin) (hnext : s'.next = s.next)
    (hglob : s'.glob = s.glob) (hcsn : s'.nextCsn = s.nextCsn) (hclock : s.clock ≤ s'.clock)
    (hst : s'.st = s.st) (hchg : s'.chg = s.chg) (htx : s'.tx = s.tx)
    (hev : ∀ t y l, .commit t y l ∈ s'.tr ↔ .commit t y l ∈ s.tr)
    (hab : ∀ y, .abort y ∈ s'.tr ↔ .abort y ∈ s.tr) : TxInv s' := by
  refine ⟨?_, ?_, ?_, ?_, ?_, ?_, ?_, ?_, ?_, ?_, ?_, ?_⟩
  · rw [hrun, hnext]; exact h.runNext
  · rw [hrun, hst]; exact h.fin
  · rw [hrun, hglob]; exact h.globRun
  · rw [hnext, hst]; exact h.fut
  · rw [hst, hchg]; exact h.none
  · rw [hst, hcsn]; exact h.csn
  · intro p
    rw [htx]
    exact TxPc.ok_congr (fun x _ => by rw [hst]) (by omega) (h.tx p)
  · rw [htx]; exact h.own
  · rw [hst, hchg]; exact h.abt
  · intro t x ks hc
    rw [hst, hchg]
    have := h.commit t x ks ((hev t x ks).1 hc)
    exact ⟨by omega, this.2⟩
  · intro x n hx
    rw [hst] at hx
    rw [hchg]
    rcases h.committed x n hx with a | ⟨t, a⟩
    · exact Or.inl a
    · exact Or.inr ⟨t, (hev _ _ _).2 a⟩
  · intro x hx
    rw [hst]
    exact h.abort x ((hab x).1 hx)

theorem Evo.same (hrun : s'.runXmin = s.runXmin) (hcsn : s'.nextCsn = s.nextCsn)
    (hclock : s'.clock = s.clock + 1) (hst : s'.st = s.st) (hchg : s'.chg = s.chg)
    (htx : s'.tx = s.tx) (hfinAt : ∀ t, t < s.clock → s'.finAt t = s.finAt t)
    (hev : ∀ t y l, .commit t y l ∈ s'.tr → .commit t y l ∈ s.tr) : Evo s s' := by
  refine ⟨fun x _ => by rw [hst, hchg]; exact ⟨rfl, rfl⟩, fun S x _ => ?_, fun S x _ _ => by rw [hchg], by omega,
    by omega, hfinAt, fun t x ks hc => Or.inl (hev t x ks hc), by omega⟩
  exact below_congr (fun n _ => by rw [hst]) (fun p n _ => by rw [htx])

theorem Inv.ticked (h : Inv N s) : Inv N (tick s) :=
  h.of_tx (h.tx.same rfl rfl rfl rfl (Nat.le_succ _) rfl rfl rfl (fun _ _ _ => Iff.rfl) (fun _ => Iff.rfl))
    (Evo.same rfl rfl rfl rfl rfl rfl (fun _ _ => rfl) (fun _ _ _ h => h))
    rfl rfl rfl rfl rfl rfl rfl (fun _ => Iff.rfl) (fun _ _ _ _ => Iff.rfl)

theorem inv_begin_ (h : Inv N s) (p : Nat) : Inv N (tick (begin_ s p)) := by
  unfold Verif.Snapshots.begin_
  split
  case isFalse => exact h.ticked
  rename_i hp
  have hnone := h.tx.fut s.next (Nat.le_refl _)
  have hown : ∀ q x, (s.tx q).of = some x → x ≠ s.next := by
    intro q x hq e
    have := h.tx.tx q
    rw [e] at hq
    revert this hq
    cases s.tx q <;> intro this hq <;> simp_all [TxPc.of, TxPc.ok]
  have hnc : ∀ t ks, .commit t s.next ks ∉ s.tr := by
    intro t ks hc
    obtain ⟨_, _, n, e⟩ := h.tx.commit t _ ks hc
    rw [hnone] at e
    cases e
  refine h.of_tx ?_ ?_ rfl rfl rfl rfl rfl rfl rfl (fun _ => Iff.rfl) (fun _ _ _ _ => Iff.rfl)
  · refine ⟨?_, ?_, ?_, ?_, ?_, ?_, ?_, ?_, ?_, ?_, ?_, ?_⟩
    · exact Nat.le_succ_of_le h.tx.runNext
    · intro x hx
      have h1 := h.tx.fin x hx
      show (upd s.st s.next .running x).finished = true
      rw [upd_other (fun e => by rw [e, hnone] at h1; cases h1)]
      exact h1
    · exact h.tx.globRun
    · intro x hx
      have hx' : s.next + 1 ≤ x := hx
      show upd s.st s.next .running x = .none
      rw [upd_other (by omega)]
      exact h.tx.fut x (by omega)
    · intro x hx
      have hx' : upd s.st s.next .running x = .none := hx
      by_cases e : x = s.next
      · rw [e, upd_same] at hx'
        cases hx'
      · rw [upd_other e] at hx'
        exact h.tx.none x hx'
    · intro x n hx
      have hx' : upd s.st s.next .running x = .committed n := hx
      by_cases e : x = s.next
      · rw [e, upd_same] at hx'
        cases hx'
      · rw [upd_other e] at hx'
        exact h.tx.csn x n hx'
    · intro q
      show (upd s.tx p (.run s.next) q).ok _
      by_cases e : q = p
      · rw [e, upd_same]
        exact upd_same
      · rw [upd_other e]
        exact TxPc.ok_congr (fun x hx => upd_other (hown q x hx)) (Nat.le_refl _) (h.tx.tx q)
    · intro q q' x h1 h2
      have h1' : (upd s.tx p (.run s.next) q).of = some x := h1
      have h2' : (upd s.tx p (.run s.next) q').of = some x := h2
      by_cases e : q = p <;> by_cases e' : q' = p
      · rw [e, e']
      · rw [e, upd_same] at h1'
        rw [upd_other e'] at h2'
        cases h1'
        exact (hown q' _ h2' rfl).elim
      · rw [e', upd_same] at h2'
        rw [upd_other e] at h1'
        cases h2'
        exact (hown q _ h1' rfl).elim
      · rw [upd_other e] at h1'
        rw [upd_other e'] at h2'
        exact h.tx.own q q' x h1' h2'
    · intro x hx
      have hx' : upd s.st s.next .running x = .aborted := hx
      by_cases e : x = s.next
      · rw [e, upd_same] at hx'
        cases hx'
      · rw [upd_other e] at hx'
        exact h.tx.abt x hx'
    · intro t x ks hc
      obtain ⟨a, b, n, d⟩ := h.tx.commit t x ks hc
      refine ⟨Nat.lt_succ_of_lt a, b, n, ?_⟩
      exact (upd_other (fun e => hnc t ks (by rw [← e]; exact hc))).trans d
    · intro x n hx
      have hx' : upd s.st s.next .running x = .committed n := hx
      by_cases e : x = s.next
      · rw [e, upd_same] at hx'
        cases hx'
      · rw [upd_other e] at hx'
        exact h.tx.committed x n hx'
    · intro x hx
      have h1 := h.tx.abort x hx
      exact (upd_other (fun e => by rw [e, hnone] at h1; cases h1)).trans h1
  · refine ⟨?_, ?_, fun _ _ _ _ => rfl, Nat.le_refl _, Nat.lt_succ_self _, fun _ _ => rfl,
      fun _ _ _ h => Or.inl h, Nat.le_refl _⟩
    · intro x hx
      exact ⟨upd_other (fun e => by rw [e, hnone] at hx; cases hx), rfl⟩
    · intro S x _
      apply below_congr
      · intro n _
        show upd s.st s.next .running x = _ ↔ _
        by_cases e : x = s.next
        · rw [e, upd_same, hnone]
          exact ⟨fun h => (by cases h), fun h => (by cases h)⟩
        · rw [upd_other e]
      · intro q n _
        show upd s.tx p (.run s.next) q = _ ↔ _
        by_cases e : q = p
        · rw [e, upd_same, hp]
          exact ⟨fun h => (by cases h), fun h => (by cases h)⟩
        · rw [upd_other e]

theorem inv_change (h : Inv N s) (p k : Nat) : Inv N (tick (change s p k)) := by
  unfold Verif.Snapshots.change
  split
  case h_2 => exact h.ticked
  rename_i x hp
  have hst : s.st x = .running := by have := h.tx.tx p; rw [hp] at this; exact this
  refine h.of_tx ?_ ?_ rfl rfl rfl rfl rfl rfl rfl (fun _ => Iff.rfl) (fun _ _ _ _ => Iff.rfl)
  · refine h.tx.own_step (p := p) (x := x) (after := .run x) (v := .running) (ks := k :: s.chg x)
      (by rw [hp]; rfl) rfl rfl rfl (Nat.le_refl _) rfl (by rw [← hst]; exact upd_self) rfl
      (by rw [← hp]; exact upd_self) (by simp) (Or.inl rfl) hst (by simp) (by simp)
      (fun _ _ _ h => Or.inl h) (fun _ h => h) (fun _ h => Or.inl h)
  · refine Evo.own_step h.tx (p := p) (x := x) (after := .run x) (v := .running) (ks := k :: s.chg x)
      (by rw [hp]; rfl) rfl (Nat.le_refl _) rfl rfl (by rw [← hst]; exact upd_self) rfl
      (by rw [← hp]; exact upd_self) (Or.inr hst) (by simp [hp]) (Or.inl rfl)
      (fun _ _ _ h => Or.inl h)

theorem inv_undoOne (h : Inv N s) (p : Nat) : Inv N (tick (undoOne s p)) := by
  unfold Verif.Snapshots.undoOne
  split
  case h_3 => exact h.ticked
  all_goals
    rename_i x hp
    have hst : s.st x = .running := by have := h.tx.tx p; rw [hp] at this; exact this
    refine h.of_tx ?_ ?_ rfl rfl rfl rfl rfl rfl rfl (fun _ => Iff.rfl) (fun _ _ _ _ => Iff.rfl)
    · refine h.tx.own_step (p := p) (x := x) (after := s.tx p) (v := .running) (ks := (s.chg x).tail)
        (by rw [hp]; rfl) rfl rfl rfl (Nat.le_refl _) rfl (by rw [← hst]; exact upd_self) rfl
        upd_self (by simp) (Or.inl (by rw [hp]; rfl)) (by rw [hp]; exact hst) (by simp) (by simp)
        (fun _ _ _ h => Or.inl h) (fun _ h => h) (fun _ h => Or.inl h)
    · refine Evo.own_step h.tx (p := p) (x := x) (after := s.tx p) (v := .running)
        (ks := (s.chg x).tail)
        (by rw [hp]; rfl) rfl (Nat.le_refl _) rfl rfl (by rw [← hst]; exact upd_self) rfl
        upd_self (Or.inr hst) (by simp [hp]) (Or.inl (by rw [hp]; rfl))
        (fun _ _ _ h => Or.inl h)

theorem inv_precommit (h : Inv N s) (p : Nat) : Inv N (tick (precommit s p)) := by
  unfold Verif.Snapshots.precommit
  split
  case h_2 => exact h.ticked
  rename_i x hp
  refine h.of_tx ?_ ?_ rfl rfl rfl rfl rfl rfl rfl (fun _ => Iff.rfl) (fun _ _ _ _ => Iff.rfl)
  · refine h.tx.own_step (p := p) (x := x) (after := .marked x) (v := .committing) (ks := s.chg x)
      (by rw [hp]; rfl) rfl rfl rfl (Nat.le_refl _) rfl rfl upd_self rfl (by simp) (Or.inl rfl)
      upd_same (by simp) (by simp)
      (fun _ _ _ h => Or.inl h) (fun _ h => h) (fun _ h => Or.inl h)
  · refine Evo.own_step h.tx (p := p) (x := x) (after := .marked x) (v := .committing)
      (ks := s.chg x)
      (by rw [hp]; rfl) rfl (Nat.le_refl _) rfl rfl rfl upd_self rfl
      (Or.inl rfl) (by simp [hp]) (Or.inl rfl) (fun _ _ _ h => Or.inl h)

theorem inv_number (h : Inv N s) (p : Nat) : Inv N (tick (number s p)) := by
  unfold Verif.Snapshots.number
  split
  case h_2 => exact h.ticked
  rename_i x hp
  have hst : s.st x = .committing := by have := h.tx.tx p; rw [hp] at this; exact this
  refine h.of_tx ?_ ?_ rfl rfl rfl rfl rfl rfl rfl (fun _ => Iff.rfl) (fun _ _ _ _ => Iff.rfl)
  · refine h.tx.own_step (p := p) (x := x) (after := .numbered x s.nextCsn) (v := .committing)
      (ks := s.chg x)
      (by rw [hp]; rfl) rfl rfl rfl (Nat.le_succ _) rfl (by rw [← hst]; exact upd_self) upd_self rfl
      (by simp) (Or.inl rfl) ⟨hst, Nat.lt_succ_self _⟩ (by simp) (by simp)
      (fun _ _ _ h => Or.inl h) (fun _ h => h) (fun _ h => Or.inl h)
  · refine Evo.own_step h.tx (p := p) (x := x) (after := .numbered x s.nextCsn) (v := .committing)
      (ks := s.chg x)
      (by rw [hp]; rfl) rfl (Nat.le_succ _) rfl rfl (by rw [← hst]; exact upd_self) upd_self rfl
      (Or.inl rfl) ?_ (Or.inl rfl) (fun _ _ _ h => Or.inl h)
    intro S hS n hn
    rw [hp]
    constructor
    · rintro (e | e)
      · cases e
      · cases e
        omega
    · intro e
      cases e

theorem inv_store (h : Inv N s) (p : Nat) : Inv N (tick (store s p)) := by
  unfold Verif.Snapshots.store
  split
  case h_2 => exact h.ticked
  rename_i x m hp
  have hst : s.st x = .committing ∧ m < s.nextCsn := by have := h.tx.tx p; rw [hp] at this; exact this
  refine h.of_tx ?_ ?_ rfl rfl rfl rfl rfl rfl rfl (fun _ => by simp [tick]) (fun _ _ _ _ => by simp [tick])
  · refine h.tx.own_step (p := p) (x := x) (after := .none) (v := .committed m) (ks := s.chg x)
      (by rw [hp]; rfl) rfl rfl rfl (Nat.le_refl _) rfl rfl upd_self rfl (by simp) (Or.inr rfl)
      trivial ?_ (by simp) ?_ (fun _ h => List.mem_cons_of_mem _ h) ?_
    · intro n e
      cases e
      exact ⟨hst.2, s.clock, List.mem_cons_self⟩
    · intro t y l hl
      rcases List.mem_cons.1 hl with e | e
      · cases e
        exact Or.inr ⟨rfl, rfl, rfl, m, rfl⟩
      · exact Or.inl e
    · intro y hy
      rcases List.mem_cons.1 hy with e | e
      · cases e
      · exact Or.inl e
  · refine Evo.own_step h.tx (p := p) (x := x) (after := .none) (v := .committed m) (ks := s.chg x)
      (by rw [hp]; rfl) rfl (Nat.le_refl _) rfl rfl rfl upd_self rfl
      (Or.inl rfl) ?_ (Or.inr rfl) ?_
    · intro S hS n hn
      rw [hp]
      constructor
      · rintro (e | e)
        · cases e
          rfl
        · cases e
      · intro e
        cases e
        exact Or.inl rfl
    · intro t y l hl
      rcases List.mem_cons.1 hl with e | e
      · cases e
        exact Or.inr rfl
      · exact Or.inl e

theorem inv_abort (h : Inv N s) (p : Nat) : Inv N (tick (abort s p)) := by
  unfold Verif.Snapshots.abort
  split
  case h_3 => exact h.ticked
  · rename_i x hp
    have hst : s.st x = .running := by have := h.tx.tx p; rw [hp] at this; exact this
    refine h.of_tx ?_ ?_ rfl rfl rfl rfl rfl rfl rfl (fun _ => Iff.rfl) (fun _ _ _ _ => Iff.rfl)
    · refine h.tx.own_step (p := p) (x := x) (after := .undoing x) (v := .running) (ks := s.chg x)
        (by rw [hp]; rfl) rfl rfl rfl (Nat.le_refl _) rfl (by rw [← hst]; exact upd_self) upd_self rfl
        (by simp) (Or.inl rfl) hst (by simp) (by simp)
        (fun _ _ _ h => Or.inl h) (fun _ h => h) (fun _ h => Or.inl h)
    · refine Evo.own_step h.tx (p := p) (x := x) (after := .undoing x) (v := .running)
        (ks := s.chg x)
        (by rw [hp]; rfl) rfl (Nat.le_refl _) rfl rfl (by rw [← hst]; exact upd_self) upd_self rfl
        (Or.inl rfl) (by simp [hp]) (Or.inl rfl) (fun _ _ _ h => Or.inl h)
  · rename_i x hp
    refine h.of_tx ?_ ?_ rfl rfl rfl rfl rfl rfl rfl (fun _ => Iff.rfl) (fun _ _ _ _ => Iff.rfl)
    · refine h.tx.own_step (p := p) (x := x) (after := .undoing x) (v := .running) (ks := s.chg x)
        (by rw [hp]; rfl) rfl rfl rfl (Nat.le_refl _) rfl rfl upd_self rfl
        (by simp) (Or.inl rfl) upd_same (by simp) (by simp)
        (fun _ _ _ h => Or.inl h) (fun _ h => h) (fun _ h => Or.inl h)
    · refine Evo.own_step h.tx (p := p) (x := x) (after := .undoing x) (v := .running)
        (ks := s.chg x)
        (by rw [hp]; rfl) rfl (Nat.le_refl _) rfl rfl rfl upd_self rfl
        (Or.inl rfl) (by simp [hp]) (Or.inl rfl) (fun _ _ _ h => Or.inl h)

theorem inv_aborted (h : Inv N s) (p : Nat) : Inv N (tick (aborted s p)) := by
  unfold Verif.Snapshots.aborted
  split
  case h_2 => exact h.ticked
  rename_i x hp
  split
  case isFalse => exact h.ticked
  rename_i hk
  refine h.of_tx ?_ ?_ rfl rfl rfl rfl rfl rfl rfl (fun _ => by simp [tick]) (fun _ _ _ _ => by simp [tick])
  · refine h.tx.own_step (p := p) (x := x) (after := .none) (v := .aborted) (ks := s.chg x)
      (by rw [hp]; rfl) rfl rfl rfl (Nat.le_refl _) rfl rfl upd_self rfl (by simp) (Or.inr rfl)
      trivial (by simp) (fun _ => hk) ?_ (fun _ h => List.mem_cons_of_mem _ h) ?_
    · intro t y l hl
      rcases List.mem_cons.1 hl with e | e
      · cases e
      · exact Or.inl e
    · intro y hy
      rcases List.mem_cons.1 hy with e | e
      · cases e
        exact Or.inr ⟨rfl, rfl⟩
      · exact Or.inl e
  · refine Evo.own_step h.tx (p := p) (x := x) (after := .none) (v := .aborted) (ks := s.chg x)
      (by rw [hp]; rfl) rfl (Nat.le_refl _) rfl rfl rfl upd_self rfl
      (Or.inl rfl) (by simp [hp]) (Or.inr rfl) ?_
    intro t y l hl
    rcases List.mem_cons.1 hl with e | e
    · cases e
    · exact Or.inl e

theorem inv_lateUndo (h : Inv N s) (p : Nat) : Inv N (tick (lateUndo s p)) := by
  unfold Verif.Snapshots.lateUndo
  split
  case h_2 => exact h.ticked
  rename_i x hp
  have := h.tx.tx p
  rw [hp] at this
  exact this.elim

theorem inv_raiseRun (h : Inv N s) : Inv N (tick (raiseRun s)) := by
  unfold Verif.Snapshots.raiseRun
  split
  case isFalse => exact h.ticked
  rename_i hp
  refine h.of_tx ?_ ?_ rfl rfl rfl rfl rfl rfl rfl (fun _ => Iff.rfl) (fun _ _ _ _ => Iff.rfl)
  · have t := h.tx.same (s' := tick s) rfl rfl rfl rfl (Nat.le_succ _) rfl rfl rfl
      (fun _ _ _ => Iff.rfl) (fun _ => Iff.rfl)
    refine ⟨hp.1, ?_, Nat.le_succ_of_le t.globRun, t.fut, t.none, t.csn, t.tx, t.own, t.abt, t.commit,
      t.committed, t.abort⟩
    intro x hx
    have hx' : x < s.runXmin + 1 := hx
    by_cases e : x = s.runXmin
    · rw [e]
      exact hp.2
    · exact h.tx.fin x (by omega)
  · have e : Evo s (tick s) := Evo.same rfl rfl rfl rfl rfl rfl (fun _ _ => rfl) (fun _ _ _ h => h)
    exact ⟨e.fin, e.below, e.chg, e.csn, e.clock, e.finAt, e.commit, Nat.le_succ _⟩

end Verif.Snapshots
