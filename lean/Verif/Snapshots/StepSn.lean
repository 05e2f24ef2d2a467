import Verif.Snapshots.StepTx

/-!
# Snapshots keep the invariant
-/

namespace Verif.Snapshots

variable {N : Nat} {s s' : St}

/-- Steps that leave transactions alone. -/
structure Calm (s s' : St) : Prop where
  run : s'.runXmin = s.runXmin
  next : s'.next = s.next
  csn : s'.nextCsn = s.nextCsn
  clock : s'.clock = s.clock + 1
  st : s'.st = s.st
  chg : s'.chg = s.chg
  tx : s'.tx = s.tx

theorem Calm.evo (c : Calm s s') (hfinAt : ∀ t, t < s.clock → s'.finAt t = s.finAt t)
    (hev : ∀ t y l, .commit t y l ∈ s'.tr → .commit t y l ∈ s.tr) : Evo s s' :=
  Evo.same c.run c.csn c.clock c.st c.chg c.tx hfinAt hev

theorem Calm.txInv (c : Calm s s') (h : TxInv s) (hglob : s'.glob = s.glob)
    (hev : ∀ t y l, .commit t y l ∈ s'.tr ↔ .commit t y l ∈ s.tr)
    (hab : ∀ y, .abort y ∈ s'.tr ↔ .abort y ∈ s.tr) : TxInv s' :=
  h.same c.run c.next hglob c.csn (by have := c.clock; omega) c.st c.chg c.tx hev hab

theorem SnOk.cast {sn : Snap} (o : SnOk s sn) (h1 : s'.nextCsn = s.nextCsn) (h2 : s'.clock = s.clock)
    (h3 : s'.finAt = s.finAt) (h4 : s'.st = s.st) (h5 : s'.tr = s.tr) (h6 : s'.tx = s.tx) :
    SnOk s' sn := by
  have e : ∀ S x, below s' S x ↔ below s S x := fun S x => by rw [below, below, h4, h6]
  refine ⟨by rw [h1]; exact o.csn, by rw [h2]; exact o.time, by rw [h3, h4]; exact o.fin,
    by rw [h3]; exact o.xmin, ?_⟩
  intro t x ks hc ht
  rw [h5] at hc
  exact (e _ _).2 (o.commit t x ks hc ht)

theorem inv_advStart (h : Inv N s) : Inv N (tick (advStart s)) := by
  unfold advStart
  split
  case h_2 => exact h.ticked
  have t := h.ticked
  refine ⟨t.tx.same rfl rfl rfl rfl (Nat.le_refl _) rfl rfl rfl (fun _ _ _ => Iff.rfl) (fun _ => Iff.rfl),
    t.sess.frame (Nat.le_refl _) (Nat.le_refl _) rfl rfl rfl rfl rfl, ?_⟩
  refine ⟨?_, fun sn hs => (t.sn.took sn hs).cast rfl rfl rfl rfl rfl rfl, t.sn.order, t.sn.held, t.sn.glob, ?_, t.sn.page, t.sn.check, t.sn.map,
    t.sn.lookTook, t.sn.lookTrue, t.sn.lookFalse⟩
  · intro i g e
    cases e
    exact Nat.le_refl _
  · intro p sn i g _ e hi
    cases e
    omega

theorem inv_advGo (h : Inv N s) : Inv N (tick (advGo N s)) := by
  have t := h.ticked
  unfold advGo
  split
  · exact t
  rename_i i g hadv
  split
  · rename_i hi
    have key : ∀ g', g' ≤ g → (∀ m, s.pxmin i = some m → g' ≤ m) →
        Inv N (tick { s with adv := some (i + 1, g') }) := by
      intro g' hg hm
      refine ⟨t.tx.same rfl rfl rfl rfl (Nat.le_refl _) rfl rfl rfl (fun _ _ _ => Iff.rfl)
        (fun _ => Iff.rfl), t.sess.frame (Nat.le_refl _) (Nat.le_refl _) rfl rfl rfl rfl rfl, ?_⟩
      refine ⟨?_, fun sn hs => (t.sn.took sn hs).cast rfl rfl rfl rfl rfl rfl, t.sn.order, t.sn.held, t.sn.glob, ?_, t.sn.page, t.sn.check, t.sn.map,
        t.sn.lookTook, t.sn.lookTrue, t.sn.lookFalse⟩
      · intro j g'' e
        cases e
        exact Nat.le_trans hg (h.sn.adv i g hadv)
      · intro p sn j g'' hh e hp x hx
        cases e
        by_cases e : p = i
        · obtain ⟨_, m, e1, e2⟩ := h.sess.cover p sn hh
          rw [e] at e1
          have := hm m e1
          exact (h.sn.took sn (h.sn.held p sn hh)).xmin x (by omega)
        · exact h.sn.scan p sn i g hh hadv (by omega) x (by omega)
    split
    · rename_i m hm
      have := key (if m < g then m else g) (by split <;> omega)
        (fun m' e => by rw [hm] at e; cases e; split <;> omega)
      exact this
    · rename_i hm
      exact key g (Nat.le_refl _) (fun m' e => by rw [hm] at e; cases e)
  · rename_i hi
    have hg := h.sn.adv i g hadv
    have hlt : ∀ x, x < (if s.glob < g then g else s.glob) → x < s.glob ∨ x < g := by
      intro x hx
      split at hx <;> omega
    refine ⟨?_, t.sess.frame (Nat.le_refl _) (Nat.le_refl _) rfl rfl rfl rfl rfl, ?_⟩
    · refine ⟨t.tx.runNext, t.tx.fin, ?_, t.tx.fut, t.tx.none, t.tx.csn, t.tx.tx, t.tx.own, t.tx.abt,
        t.tx.commit, t.tx.committed, t.tx.abort⟩
      show (if s.glob < g then g else s.glob) ≤ s.runXmin
      have := h.tx.globRun
      split <;> omega
    · refine ⟨?_, fun sn hs => (t.sn.took sn hs).cast rfl rfl rfl rfl rfl rfl, t.sn.order, t.sn.held, ?_, ?_, t.sn.page, t.sn.check, t.sn.map,
        t.sn.lookTook, t.sn.lookTrue, t.sn.lookFalse⟩
      · intro _ _ e
        cases e
      · intro p sn hh x hx
        have hx' : x < (if s.glob < g then g else s.glob) := hx
        rcases hlt x hx' with e | e
        · exact h.sn.glob p sn hh x e
        · have := (h.sess.cover p sn hh).1
          exact h.sn.scan p sn i g hh hadv (by omega) x e
      · intro _ _ _ _ _ e
        cases e

theorem inv_raiseLow (h : Inv N s) (l : Locs) : Inv N (tick { s with low := l }) := by
  have t := h.ticked
  exact ⟨⟨t.tx.runNext, t.tx.fin, t.tx.globRun, t.tx.fut, t.tx.none, t.tx.csn, t.tx.tx, t.tx.own, t.tx.abt,
        t.tx.commit, t.tx.committed, t.tx.abort⟩,
    t.sess.frame (Nat.le_refl _) (Nat.le_refl _) rfl rfl rfl rfl rfl,
    ⟨t.sn.adv, fun sn hs => (t.sn.took sn hs).cast rfl rfl rfl rfl rfl rfl, t.sn.order, t.sn.held, t.sn.glob, t.sn.scan, t.sn.page, t.sn.check, t.sn.map,
        t.sn.lookTook, t.sn.lookTrue, t.sn.lookFalse⟩⟩

theorem LookOk.iff {sn : Snap} {x k : Nat} (h1 : s'.finAt = s.finAt) (h2 : s'.st = s.st)
    (h3 : s'.chg = s.chg) (h4 : s'.tx = s.tx) : LookOk s' sn x k ↔ LookOk s sn x k := by
  rw [LookOk, LookOk, below, below, h1, h2, h3, h4]

/-- Steps of one session with its snapshots: nothing is taken or answered. -/
theorem Inv.session (h : Inv N s) (c : Calm s s') (hglob : s'.glob = s.glob) (hadv : s'.adv = s.adv)
    (hfinAt : s'.finAt = s.finAt) (htr : s'.tr = s.tr)
    (hsess : SessInv N s')
    (hheld : ∀ q sn, holds s' q sn → holds s q sn)
    (hpage : ∀ q sn x k, s'.rd q = .page sn x k → inUse s' q sn)
    (hcheck : ∀ q sn x k, s'.rd q = .check sn x k → inUse s' q sn ∧ LookOk s sn x k)
    (hmap : ∀ q sn x k, s'.rd q = .map sn x k → inUse s' q sn ∧ LookOk s sn x k) : Inv N s' := by
  have e : Evo s s' := c.evo (fun _ _ => by rw [hfinAt]) (fun _ _ _ => by rw [htr]; exact id)
  refine ⟨c.txInv h.tx hglob (fun _ _ _ => by rw [htr]) (fun _ => by rw [htr]), hsess, ?_⟩
  have hl : ∀ sn x k, LookOk s' sn x k ↔ LookOk s sn x k :=
    fun sn x k => LookOk.iff hfinAt c.st c.chg c.tx
  have hb : ∀ S x, below s' S x ↔ below s S x := fun S x => by rw [below, below, c.st, c.tx]
  refine ⟨?_, ?_, ?_, ?_, ?_, ?_, hpage, ?_, ?_, ?_, ?_, ?_⟩
  · rw [hadv, c.run]
    exact h.sn.adv
  · intro sn hs
    rw [htr] at hs
    exact (h.sn.took sn hs).evo e
  · rw [htr]
    exact h.sn.order
  · intro q sn hh
    rw [htr]
    exact h.sn.held q sn (hheld q sn hh)
  · intro q sn hh
    rw [hglob, hfinAt]
    exact h.sn.glob q sn (hheld q sn hh)
  · intro q sn i g hh
    rw [hadv, hfinAt]
    exact h.sn.scan q sn i g (hheld q sn hh)
  · exact fun q sn x k hr => ⟨(hcheck q sn x k hr).1, (hl _ _ _).2 (hcheck q sn x k hr).2⟩
  · exact fun q sn x k hr => ⟨(hmap q sn x k hr).1, (hl _ _ _).2 (hmap q sn x k hr).2⟩
  · rw [htr]
    exact h.sn.lookTook
  · rw [htr, c.st, c.chg]
    exact h.sn.lookTrue
  · intro sn x k hk
    rw [htr] at hk
    rw [hb, c.chg]
    exact h.sn.lookFalse sn x k hk

/-- Only where session `p` is changes. -/
theorem Inv.rdOnly (h : Inv N s) {p : Nat} {r : RdPc}
    (h1 : ∀ b l, r = .take1 b l → p < N ∧ b ≤ s.clock)
    (h2 : ∀ b l m, r = .take2 b l m → p < N ∧ b ≤ s.clock ∧ m ≤ s.runXmin ∧
      ∀ m', s.pxmin p = some m' → m' ≤ m)
    (h3 : ∀ b l m, r = .take3 b l m → False)
    (hpage : ∀ sn x k, r = .page sn x k → inUse s p sn)
    (hcheck : ∀ sn x k, r = .check sn x k → inUse s p sn ∧ LookOk s sn x k)
    (hmap : ∀ sn x k, r = .map sn x k → inUse s p sn ∧ LookOk s sn x k) :
    Inv N (tick { s with rd := upd s.rd p r }) := by
  have get : ∀ q r', upd s.rd p r q = r' → (q = p ∧ r = r') ∨ s.rd q = r' := by
    intro q r' e
    by_cases eq : q = p
    · rw [eq, upd_same] at e
      exact Or.inl ⟨eq, e⟩
    · rw [upd_other eq] at e
      exact Or.inr e
  refine h.session ⟨rfl, rfl, rfl, rfl, rfl, rfl, rfl⟩ rfl rfl rfl rfl ⟨?_, ?_, ?_, ?_, ?_, ?_⟩ (fun _ _ h => h)
    ?_ ?_ ?_
  · exact h.sess.pxminRun
  · exact h.sess.cover
  · exact h.sess.xminRun
  · intro q b l hr
    show q < N ∧ b < s.clock + 1
    rcases get q _ hr with ⟨e, e'⟩ | e
    · have := h1 b l e'
      rw [e]
      omega
    · have := h.sess.take1 q b l e
      omega
  · intro q b l m hr
    show q < N ∧ b < s.clock + 1 ∧ m ≤ s.runXmin ∧ ∀ m', s.pxmin q = some m' → m' ≤ m
    rcases get q _ hr with ⟨e, e'⟩ | e
    · have := h2 b l m e'
      rw [e]
      exact ⟨this.1, by omega, this.2.2⟩
    · have := h.sess.take2 q b l m e
      exact ⟨this.1, by omega, this.2.2⟩
  · intro q b l m hr
    show q < N ∧ b < s.clock + 1 ∧ m ≤ s.runXmin ∧ ∃ m', s.pxmin q = some m' ∧ m' ≤ m
    rcases get q _ hr with ⟨e, e'⟩ | e
    · exact (h3 b l m e').elim
    · have := h.sess.take3 q b l m e
      exact ⟨this.1, by omega, this.2.2⟩
  · intro q sn x k hr
    rcases get q _ hr with ⟨e, e'⟩ | e
    · rw [e]
      exact hpage sn x k e'
    · exact h.sn.page q sn x k e
  · intro q sn x k hr
    rcases get q _ hr with ⟨e, e'⟩ | e
    · rw [e]
      exact hcheck sn x k e'
    · exact h.sn.check q sn x k e
  · intro q sn x k hr
    rcases get q _ hr with ⟨e, e'⟩ | e
    · rw [e]
      exact hmap sn x k e'
    · exact h.sn.map q sn x k e

theorem inv_take (h : Inv N s) {p : Nat} (hp : p < N) : Inv N (tick (take s p)) := by
  unfold take
  split
  case isFalse => exact h.ticked
  refine h.rdOnly ?_ ?_ ?_ ?_ ?_ ?_ <;> intros <;> try (rename_i e; cases e)
  · exact ⟨hp, Nat.le_refl _⟩

theorem inv_look (h : Inv N s) (p i : Nat) (a : Bool) (x k : Nat) : Inv N (tick (look s p i a x k)) := by
  unfold look
  split
  case h_2 => exact h.ticked
  rename_i sn hr hi
  refine h.rdOnly ?_ ?_ ?_ ?_ ?_ ?_ <;> intros <;> try (rename_i e; cases e)
  · cases a
    · exact Or.inr (List.mem_of_getElem? hi)
    · exact Or.inl (List.mem_of_getElem? hi)

/-- An answer. -/
theorem inv_answer (h : Inv N s) {p : Nat} {sn : Snap} {x k : Nat} {r : Bool}
    (hsn : inUse s p sn)
    (hT : r = true → k ∈ s.chg x ∧ ∃ n, n < sn.csn ∧ s.st x = .committed n)
    (hF : r = false → ¬ (below s sn.csn x ∧ k ∈ s.chg x)) : Inv N (tick (answer s p sn x k r)) := by
  have h1 : Inv N (tick { s with rd := upd s.rd p .idle }) := by
    refine h.rdOnly ?_ ?_ ?_ ?_ ?_ ?_ <;> intros <;> try (rename_i e; cases e)
  have c : ∀ t y l, Ev.commit t y l ∈ (tick (answer s p sn x k r)).tr ↔ Ev.commit t y l ∈ s.tr := by
    intro t y l
    simp [tick, answer]
  refine ⟨h1.tx.same rfl rfl rfl rfl (Nat.le_refl _) rfl rfl rfl c (fun _ => by simp [tick, answer]),
    h1.sess.frame (Nat.le_refl _) (Nat.le_refl _) rfl rfl rfl rfl rfl, ?_⟩
  have took : ∀ sn', Ev.took sn' ∈ (tick (answer s p sn x k r)).tr ↔ Ev.took sn' ∈ s.tr := by
    intro sn'
    simp [tick, answer]
  have look : ∀ sn' x' k' r', Ev.look sn' x' k' r' ∈ (tick (answer s p sn x k r)).tr →
      (sn' = sn ∧ x' = x ∧ k' = k ∧ r' = r) ∨ Ev.look sn' x' k' r' ∈ s.tr := by
    intro sn' x' k' r' hl
    rcases List.mem_cons.1 hl with e | e
    · cases e
      exact Or.inl ⟨rfl, rfl, rfl, rfl⟩
    · exact Or.inr e
  refine ⟨h1.sn.adv, ?_, ?_, ?_, h1.sn.glob, h1.sn.scan, h1.sn.page, h1.sn.check, h1.sn.map, ?_, ?_, ?_⟩
  · intro sn' hs
    have o := h1.sn.took sn' ((took sn').1 hs)
    refine ⟨o.csn, o.time, o.fin, o.xmin, ?_⟩
    intro t y l hc ht
    exact o.commit t y l ((c t y l).1 hc) ht
  · intro sn' sn'' a b
    exact h1.sn.order sn' sn'' ((took sn').1 a) ((took sn'').1 b)
  · exact fun q sn' hh => (took sn').2 (h1.sn.held q sn' hh)
  · intro sn' x' k' r' hl
    rcases look _ _ _ _ hl with ⟨e, _⟩ | e
    · rw [e]
      exact (took sn).2 (h.sn.held p sn (Or.inr hsn))
    · exact (took sn').2 (h.sn.lookTook _ _ _ _ e)
  · intro sn' x' k' hl
    rcases look _ _ _ _ hl with ⟨e1, e2, e3, e4⟩ | e
    · rw [e1, e2, e3]
      exact hT e4.symm
    · exact h.sn.lookTrue _ _ _ e
  · intro sn' x' k' hl
    rcases look _ _ _ _ hl with ⟨e1, e2, e3, e4⟩ | e
    · rw [e1, e2, e3]
      exact hF e4.symm
    · exact h.sn.lookFalse _ _ _ e

theorem inv_rdGo (h : Inv N s) (p : Nat) : Inv N (tick (rdGo s p)) := by
  unfold rdGo
  -- frozen answers
  have frozen : ∀ sn x k, inUse s p sn → LookOk s sn x k → x < sn.xmin ∨ x < s.glob →
      k ∈ s.chg x ∧ ∃ n, n < sn.csn ∧ s.st x = .committed n := by
    intro sn x k hu hl hx
    have o := h.sn.took sn (h.sn.held p sn (Or.inr hu))
    have hf : s.finAt sn.ended x = true := by
      rcases hx with hx | hx
      · exact o.xmin x hx
      · exact h.sn.glob p sn (Or.inr hu) x hx
    obtain ⟨a, b⟩ := o.fin x hf
    have c := hl.2 hf
    cases e : s.st x with
    | committed n =>
      have d := b n e
      exact ⟨hl.1 ((below_iff h.tx e).2 d), n, d, rfl⟩
    | aborted => exact (c e).elim
    | none => rw [e] at a; cases a
    | running => rw [e] at a; cases a
    | committing => rw [e] at a; cases a
  split
  · exact h.ticked
  · -- runXmin is read
    rename_i b l hr
    have := h.sess.take1 p b l hr
    refine h.rdOnly ?_ ?_ ?_ ?_ ?_ ?_ <;> intros <;> try (rename_i e; cases e)
    · exact ⟨this.1, by omega, Nat.le_refl _, h.sess.pxminRun p⟩
  · -- own xmin is published
    rename_i b l m hr
    have hm := h.sess.take2 p b l m hr
    have hpx : ∀ q m', s.pxmin q = some m' → upd s.pxmin p (some ((s.pxmin p).getD m)) q = some m' := by
      intro q m' e
      by_cases eq : q = p
      · rw [eq, upd_same, ← eq, e]
        rfl
      · rw [upd_other eq]
        exact e
    have get : ∀ q r', upd s.rd p (.take3 b l m) q = r' → (q = p ∧ .take3 b l m = r') ∨ s.rd q = r' := by
      intro q r' e
      by_cases eq : q = p
      · rw [eq, upd_same] at e
        exact Or.inl ⟨eq, e⟩
      · rw [upd_other eq] at e
        exact Or.inr e
    have hget : (s.pxmin p).getD m ≤ m := by
      cases e : s.pxmin p with
      | none => exact Nat.le_refl _
      | some m' => exact hm.2.2.2 m' e
    have hne : ∀ q, s.rd q ≠ s.rd p → q ≠ p := fun q hq e => hq (by rw [e])
    refine h.session ⟨rfl, rfl, rfl, rfl, rfl, rfl, rfl⟩ rfl rfl rfl rfl ⟨?_, ?_, ?_, ?_, ?_, ?_⟩ (fun _ _ h => h)
      ?_ ?_ ?_
    · intro q m' e
      have e' : upd s.pxmin p (some ((s.pxmin p).getD m)) q = some m' := e
      show m' ≤ s.runXmin
      by_cases eq : q = p
      · rw [eq, upd_same] at e'
        cases e'
        omega
      · rw [upd_other eq] at e'
        exact h.sess.pxminRun q m' e'
    · intro q sn hh
      obtain ⟨a, m', e, d⟩ := h.sess.cover q sn hh
      exact ⟨a, m', hpx q m' e, d⟩
    · exact h.sess.xminRun
    · intro q b' l' e
      show q < N ∧ b' < s.clock + 1
      rcases get q _ e with ⟨_, e⟩ | e
      · cases e
      · have := h.sess.take1 q b' l' e
        omega
    · intro q b' l' m' e
      rcases get q _ e with ⟨_, e⟩ | e'
      · cases e
      · have eq : q ≠ p := by
          intro eq
          have e2 : upd s.rd p (.take3 b l m) q = .take2 b' l' m' := e
          rw [eq, upd_same] at e2
          cases e2
        have := h.sess.take2 q b' l' m' e'
        show q < N ∧ b' < s.clock + 1 ∧ m' ≤ s.runXmin ∧
          ∀ m'', upd s.pxmin p (some ((s.pxmin p).getD m)) q = some m'' → m'' ≤ m'
        rw [upd_other eq]
        exact ⟨this.1, by omega, this.2.2⟩
    · intro q b' l' m' e
      show q < N ∧ b' < s.clock + 1 ∧ m' ≤ s.runXmin ∧
          ∃ m'', upd s.pxmin p (some ((s.pxmin p).getD m)) q = some m'' ∧ m'' ≤ m'
      rcases get q _ e with ⟨eq, e⟩ | e'
      · cases e
        rw [eq, upd_same]
        exact ⟨hm.1, by omega, hm.2.2.1, _, rfl, hget⟩
      · have := h.sess.take3 q b' l' m' e'
        obtain ⟨m'', e1, e2⟩ := this.2.2.2
        exact ⟨this.1, by omega, this.2.2.1, m'', hpx q m'' e1, e2⟩
    · intro q sn x k e
      rcases get q _ e with ⟨_, e⟩ | e
      · cases e
      · exact h.sn.page q sn x k e
    · intro q sn x k e
      rcases get q _ e with ⟨_, e⟩ | e
      · cases e
      · exact h.sn.check q sn x k e
    · intro q sn x k e
      rcases get q _ e with ⟨_, e⟩ | e
      · cases e
      · exact h.sn.map q sn x k e
  · -- the snapshot is taken
    rename_i b l m hr
    obtain ⟨hpN, hb, hmr, m0, hpx, hm0⟩ := h.sess.take3 p b l m hr
    generalize hsn : (⟨m, s.nextCsn, l, b, s.clock⟩ : Snap) = sn
    have e1 : sn.xmin = m := by rw [← hsn]
    have e2 : sn.csn = s.nextCsn := by rw [← hsn]
    have e3 : sn.began = b := by rw [← hsn]
    have e4 : sn.ended = s.clock := by rw [← hsn]
    clear hsn
    generalize hs' : tick
      { s with
        rd := upd s.rd p .idle
        fresh := upd s.fresh p (some sn)
        finAt := upd s.finAt s.clock (fun x => (s.st x).finished)
        tr := .took sn :: s.tr } = s'
    have c : Calm s s' := by subst hs'; exact ⟨rfl, rfl, rfl, rfl, rfl, rfl, rfl⟩
    have hglob : s'.glob = s.glob := by subst hs'; rfl
    have hadv : s'.adv = s.adv := by subst hs'; rfl
    have hpxm : s'.pxmin = s.pxmin := by subst hs'; rfl
    have hrd : s'.rd = upd s.rd p .idle := by subst hs'; rfl
    have hfin : s'.finAt = upd s.finAt s.clock (fun x => (s.st x).finished) := by subst hs'; rfl
    have htr : s'.tr = .took sn :: s.tr := by subst hs'; rfl
    have hheld : ∀ q sn', holds s' q sn' → (q = p ∧ sn' = sn) ∨ holds s q sn' := by
      subst hs'
      intro q sn' hh
      rcases hh with hh | hh
      · have hh' : upd s.fresh p (some sn) q = some sn' := hh
        by_cases eq : q = p
        · rw [eq, upd_same] at hh'
          cases hh'
          exact Or.inl ⟨eq, rfl⟩
        · rw [upd_other eq] at hh'
          exact Or.inr (Or.inl hh')
      · exact Or.inr (Or.inr hh)
    have huse : ∀ q sn', inUse s' q sn' ↔ inUse s q sn' := by subst hs'; exact fun _ _ => Iff.rfl
    clear hs'
    have hcom : ∀ t y ks, Ev.commit t y ks ∈ s'.tr ↔ Ev.commit t y ks ∈ s.tr := by
      intro t y ks
      rw [htr]
      simp
    have hlk : ∀ sn' y k r, Ev.look sn' y k r ∈ s'.tr ↔ Ev.look sn' y k r ∈ s.tr := by
      intro sn' y k r
      rw [htr]
      simp
    have htk : ∀ sn', Ev.took sn' ∈ s'.tr → sn' = sn ∨ Ev.took sn' ∈ s.tr := by
      intro sn' hh
      rw [htr] at hh
      rcases List.mem_cons.1 hh with e | e
      · cases e
        exact Or.inl rfl
      · exact Or.inr e
    have htk' : ∀ sn', Ev.took sn' ∈ s.tr → Ev.took sn' ∈ s'.tr := by
      intro sn' hh
      rw [htr]
      exact List.mem_cons_of_mem _ hh
    have ev : Evo s s' := by
      refine c.evo ?_ (fun t y ks => (hcom t y ks).1)
      intro t ht
      rw [hfin, upd_other (by omega)]
    have hb : ∀ S x, below s' S x ↔ below s S x := fun S x => by rw [below, below, c.st, c.tx]
    have hfsn : ∀ x, s'.finAt sn.ended x = (s.st x).finished := by
      intro x
      rw [hfin, e4, upd_same]
    have hfold : ∀ sn', Ev.took sn' ∈ s.tr → s'.finAt sn'.ended = s.finAt sn'.ended :=
      fun sn' hh => ev.finAt _ (h.sn.took sn' hh).time.2
    have get : ∀ q r', s'.rd q = r' → r' ≠ .idle → s.rd q = r' := by
      intro q r' e hne
      rw [hrd] at e
      by_cases eq : q = p
      · rw [eq, upd_same] at e
        exact (hne e.symm).elim
      · rw [upd_other eq] at e
        exact e
    refine ⟨c.txInv h.tx hglob hcom (fun _ => by rw [htr]; simp), ⟨?_, ?_, ?_, ?_, ?_, ?_⟩, ⟨?_, ?_, ?_, ?_, ?_, ?_, ?_, ?_, ?_, ?_, ?_, ?_⟩⟩
    · rw [hpxm, c.run]
      exact h.sess.pxminRun
    · intro q sn' hh
      rw [hpxm]
      rcases hheld q sn' hh with ⟨eq, e⟩ | hh
      · rw [eq, e, e1]
        exact ⟨hpN, m0, hpx, hm0⟩
      · exact h.sess.cover q sn' hh
    · intro q sn' hh
      rw [c.run]
      rcases hheld q sn' hh with ⟨_, e⟩ | hh
      · rw [e, e1]
        exact hmr
      · exact h.sess.xminRun q sn' hh
    · intro q b' l' e
      rw [c.clock]
      have := h.sess.take1 q b' l' (get q _ e (by simp))
      omega
    · intro q b' l' m' e
      rw [c.clock, c.run, hpxm]
      have := h.sess.take2 q b' l' m' (get q _ e (by simp))
      exact ⟨this.1, by omega, this.2.2⟩
    · intro q b' l' m' e
      rw [c.clock, c.run, hpxm]
      have := h.sess.take3 q b' l' m' (get q _ e (by simp))
      exact ⟨this.1, by omega, this.2.2⟩
    · rw [hadv, c.run]
      exact h.sn.adv
    · intro sn' hh
      rcases htk sn' hh with e | hh
      · rw [e]
        refine ⟨by rw [e2, c.csn]; exact Nat.le_refl _, ⟨by omega, by rw [c.clock]; omega⟩, ?_, ?_, ?_⟩
        · intro x hx
          rw [hfsn] at hx
          rw [c.st, e2]
          exact ⟨hx, fun n e => h.tx.csn x n e⟩
        · intro x hx
          rw [hfsn]
          exact h.tx.fin x (by omega)
        · intro t x ks hc _
          obtain ⟨_, _, n, e⟩ := h.tx.commit t x ks ((hcom t x ks).1 hc)
          rw [hb, e2]
          exact ⟨n, h.tx.csn x n e, Or.inl e⟩
      · exact (h.sn.took sn' hh).evo ev
    · intro sn1 sn2 h1 h2 ht
      rcases htk sn1 h1 with d1 | h1 <;> rcases htk sn2 h2 with d2 | h2
      · rw [d1, d2]
        exact Nat.le_refl _
      · have := (h.sn.took sn2 h2).time.2
        rw [d1] at ht
        omega
      · rw [d2, e2]
        exact (h.sn.took sn1 h1).csn
      · exact h.sn.order sn1 sn2 h1 h2 ht
    · intro q sn' hh
      rcases hheld q sn' hh with ⟨_, e⟩ | hh
      · rw [e, htr]
        exact List.mem_cons_self
      · exact htk' sn' (h.sn.held q sn' hh)
    · intro q sn' hh x hx
      rw [hglob] at hx
      rcases hheld q sn' hh with ⟨_, e⟩ | hh
      · rw [e, hfsn]
        have := h.tx.globRun
        exact h.tx.fin x (by omega)
      · rw [hfold sn' (h.sn.held q sn' hh)]
        exact h.sn.glob q sn' hh x hx
    · intro q sn' i g hh ha hi x hx
      rw [hadv] at ha
      rcases hheld q sn' hh with ⟨_, e⟩ | hh
      · rw [e, hfsn]
        have := h.sn.adv i g ha
        exact h.tx.fin x (by omega)
      · rw [hfold sn' (h.sn.held q sn' hh)]
        exact h.sn.scan q sn' i g hh ha hi x hx
    · intro q sn' x k e
      exact (huse q sn').2 (h.sn.page q sn' x k (get q _ e (by simp)))
    · intro q sn' x k e
      obtain ⟨a, d⟩ := h.sn.check q sn' x k (get q _ e (by simp))
      exact ⟨(huse q sn').2 a, d.evo (h.sn.took sn' (h.sn.held q sn' (Or.inr a))) ev⟩
    · intro q sn' x k e
      obtain ⟨a, d⟩ := h.sn.map q sn' x k (get q _ e (by simp))
      exact ⟨(huse q sn').2 a, d.evo (h.sn.took sn' (h.sn.held q sn' (Or.inr a))) ev⟩
    · exact fun sn' x k r hl => htk' sn' (h.sn.lookTook sn' x k r ((hlk _ _ _ _).1 hl))
    · intro sn' x k hl
      rw [c.st, c.chg]
      exact h.sn.lookTrue sn' x k ((hlk _ _ _ _).1 hl)
    · intro sn' x k hl
      rw [hb, c.chg]
      exact h.sn.lookFalse sn' x k ((hlk _ _ _ _).1 hl)
  · -- page
    rename_i sn x k hr
    have hu := h.sn.page p sn x k hr
    split
    · rename_i hk
      refine h.rdOnly ?_ ?_ ?_ ?_ ?_ ?_ <;> intros <;> try (rename_i e; cases e)
      · refine ⟨hu, fun _ => hk, fun _ e => ?_⟩
        rw [h.tx.abt x e] at hk
        cases hk
    · rename_i hk
      exact inv_answer h hu (fun e => (by cases e)) (fun _ hh => hk hh.2)
  · -- check
    rename_i sn x k hr
    have hu := h.sn.check p sn x k hr
    split
    · rename_i hx
      exact inv_answer h hu.1 (fun _ => frozen sn x k hu.1 hu.2 hx) (fun e => (by cases e))
    · refine h.rdOnly ?_ ?_ ?_ ?_ ?_ ?_ <;> intros <;> try (rename_i e; cases e)
      · exact hu
  · -- map
    rename_i sn x k hr
    have hu := h.sn.map p sn x k hr
    split
    · rename_i hx
      exact inv_answer h hu.1 (fun _ => frozen sn x k hu.1 hu.2 (Or.inr hx)) (fun e => (by cases e))
    · have nb : s.st x ≠ .committing → (∀ n, s.st x ≠ .committed n) → ¬ below s sn.csn x := by
        intro h1 h2 hb
        rcases below_st h.tx hb with e | ⟨n, e⟩
        · exact h1 e
        · exact h2 n e
      split
      · rename_i e
        exact inv_answer h hu.1 (fun e => (by cases e))
          (fun _ hh => nb (by rw [e]; simp) (by rw [e]; simp) hh.1)
      · rename_i e
        exact inv_answer h hu.1 (fun e => (by cases e))
          (fun _ hh => nb (by rw [e]; simp) (by rw [e]; simp) hh.1)
      · refine h.rdOnly ?_ ?_ ?_ ?_ ?_ ?_ <;> intros <;> try (rename_i e; cases e)
        · exact hu
      · rename_i n e
        refine inv_answer h hu.1 (fun d => ?_) (fun d hh => ?_)
        · have d := of_decide_eq_true d
          exact ⟨hu.2.1 ((below_iff h.tx e).2 d), n, d, e⟩
        · exact of_decide_eq_false d ((below_iff h.tx e).1 hh.1)
      · rename_i e
        exact inv_answer h hu.1 (fun e => (by cases e))
          (fun _ hh => nb (by rw [e]; simp) (by rw [e]; simp) hh.1)

/-- The session `p`, not busy, changes its snapshots and its `xmin`. -/
theorem Inv.lists (h : Inv N s) (c : Calm s s') (hglob : s'.glob = s.glob) (hadv : s'.adv = s.adv)
    (hfinAt : s'.finAt = s.finAt) (htr : s'.tr = s.tr) (hrd : s'.rd = s.rd) {p : Nat}
    (hp : s.rd p = .idle)
    (hother : ∀ q, q ≠ p → s'.pxmin q = s.pxmin q ∧ s'.fresh q = s.fresh q ∧
      s'.active q = s.active q ∧ s'.reg q = s.reg q)
    (hheld : ∀ sn, holds s' p sn → holds s p sn)
    (hpx : ∀ m, s'.pxmin p = some m → m ≤ s.runXmin)
    (hcov : ∀ sn, holds s' p sn → ∃ m, s'.pxmin p = some m ∧ m ≤ sn.xmin) : Inv N s' := by
  have held' : ∀ q sn, holds s' q sn → holds s q sn := by
    intro q sn hh
    by_cases e : q = p
    · rw [e] at hh ⊢
      exact hheld sn hh
    · obtain ⟨_, a, b, d⟩ := hother q e
      rw [holds, a, b, d] at hh
      exact hh
  have use' : ∀ q sn, q ≠ p → inUse s q sn → inUse s' q sn := by
    intro q sn e hu
    obtain ⟨_, _, b, d⟩ := hother q e
    rw [inUse, b, d]
    exact hu
  have ne : ∀ q, s.rd q ≠ .idle → q ≠ p := fun q hq e => hq (by rw [e]; exact hp)
  refine h.session c hglob hadv hfinAt htr ⟨?_, ?_, ?_, ?_, ?_, ?_⟩ held' ?_ ?_ ?_
  · intro q m hm
    rw [c.run]
    by_cases e : q = p
    · rw [e] at hm
      exact hpx m hm
    · rw [(hother q e).1] at hm
      exact h.sess.pxminRun q m hm
  · intro q sn hh
    have hc := h.sess.cover q sn (held' q sn hh)
    refine ⟨hc.1, ?_⟩
    by_cases e : q = p
    · rw [e] at hh ⊢
      exact hcov sn hh
    · rw [(hother q e).1]
      exact hc.2
  · intro q sn hh
    rw [c.run]
    exact h.sess.xminRun q sn (held' q sn hh)
  · intro q b l hr
    rw [hrd] at hr
    rw [c.clock]
    have := h.sess.take1 q b l hr
    omega
  · intro q b l m hr
    rw [hrd] at hr
    rw [c.clock, c.run, (hother q (ne q (by rw [hr]; simp))).1]
    have := h.sess.take2 q b l m hr
    exact ⟨this.1, by omega, this.2.2⟩
  · intro q b l m hr
    rw [hrd] at hr
    rw [c.clock, c.run, (hother q (ne q (by rw [hr]; simp))).1]
    have := h.sess.take3 q b l m hr
    exact ⟨this.1, by omega, this.2.2⟩
  · intro q sn x k hr
    rw [hrd] at hr
    exact use' q sn (ne q (by rw [hr]; simp)) (h.sn.page q sn x k hr)
  · intro q sn x k hr
    rw [hrd] at hr
    have := h.sn.check q sn x k hr
    exact ⟨use' q sn (ne q (by rw [hr]; simp)) this.1, this.2⟩
  · intro q sn x k hr
    rw [hrd] at hr
    have := h.sn.map q sn x k hr
    exact ⟨use' q sn (ne q (by rw [hr]; simp)) this.1, this.2⟩

theorem inv_register (h : Inv N s) (p : Nat) : Inv N (tick (register s p)) := by
  unfold register
  split
  case h_2 => exact h.ticked
  rename_i sn hp hf
  have hheld : ∀ sn', holds (tick { s with reg := upd s.reg p (sn :: s.reg p) }) p sn' → holds s p sn' := by
    rintro sn' (hh | hh | hh)
    · exact Or.inl hh
    · exact Or.inr (Or.inl hh)
    · have hh' : sn' ∈ upd s.reg p (sn :: s.reg p) p := hh
      rw [upd_same] at hh'
      rcases List.mem_cons.1 hh' with e | e
      · rw [e]
        exact Or.inl hf
      · exact Or.inr (Or.inr e)
  exact h.lists ⟨rfl, rfl, rfl, rfl, rfl, rfl, rfl⟩ rfl rfl rfl rfl rfl hp
    (fun q e => ⟨rfl, rfl, rfl, upd_other e⟩) hheld (h.sess.pxminRun p)
    (fun sn' hh => (h.sess.cover p sn' (hheld sn' hh)).2)

theorem inv_activated (h : Inv N s) {p : Nat} {sn : Snap} (hp : s.rd p = .idle) (hsn : holds s p sn) :
    Inv N (tick { s with active := upd s.active p (sn :: s.active p) }) := by
  have hheld : ∀ sn', holds (tick { s with active := upd s.active p (sn :: s.active p) }) p sn' →
      holds s p sn' := by
    rintro sn' (hh | hh | hh)
    · exact Or.inl hh
    · have hh' : sn' ∈ upd s.active p (sn :: s.active p) p := hh
      rw [upd_same] at hh'
      rcases List.mem_cons.1 hh' with e | e
      · rw [e]
        exact hsn
      · exact Or.inr (Or.inl e)
    · exact Or.inr (Or.inr hh)
  exact h.lists ⟨rfl, rfl, rfl, rfl, rfl, rfl, rfl⟩ rfl rfl rfl rfl rfl hp
    (fun q e => ⟨rfl, rfl, upd_other e, rfl⟩) hheld (h.sess.pxminRun p)
    (fun sn' hh => (h.sess.cover p sn' (hheld sn' hh)).2)

theorem inv_activate (h : Inv N s) (p : Nat) : Inv N (tick (activate s p)) := by
  unfold activate
  split
  case h_2 => exact h.ticked
  rename_i sn hp hf
  exact inv_activated h hp (Or.inl hf)

theorem inv_activateReg (h : Inv N s) (p i : Nat) : Inv N (tick (activateReg s p i)) := by
  unfold activateReg
  split
  case h_2 => exact h.ticked
  rename_i sn hp hf
  exact inv_activated h hp (Or.inr (Or.inr (List.mem_of_getElem? hf)))

theorem inv_deregister (h : Inv N s) (p i : Nat) : Inv N (tick (deregister s p i)) := by
  unfold deregister
  split
  case isFalse => exact h.ticked
  rename_i hp
  have hheld : ∀ sn', holds (tick { s with reg := upd s.reg p ((s.reg p).eraseIdx i) }) p sn' →
      holds s p sn' := by
    rintro sn' (hh | hh | hh)
    · exact Or.inl hh
    · exact Or.inr (Or.inl hh)
    · have hh' : sn' ∈ upd s.reg p ((s.reg p).eraseIdx i) p := hh
      rw [upd_same] at hh'
      exact Or.inr (Or.inr (List.mem_of_mem_eraseIdx hh'))
  exact h.lists ⟨rfl, rfl, rfl, rfl, rfl, rfl, rfl⟩ rfl rfl rfl rfl rfl hp
    (fun q e => ⟨rfl, rfl, rfl, upd_other e⟩) hheld (h.sess.pxminRun p)
    (fun sn' hh => (h.sess.cover p sn' (hheld sn' hh)).2)

theorem inv_pop (h : Inv N s) (p : Nat) : Inv N (tick (pop s p)) := by
  unfold pop
  split
  case isFalse => exact h.ticked
  rename_i hp
  have hheld : ∀ sn', holds (tick { s with active := upd s.active p (s.active p).tail }) p sn' →
      holds s p sn' := by
    rintro sn' (hh | hh | hh)
    · exact Or.inl hh
    · have hh' : sn' ∈ upd s.active p (s.active p).tail p := hh
      rw [upd_same] at hh'
      exact Or.inr (Or.inl (List.mem_of_mem_tail hh'))
    · exact Or.inr (Or.inr hh)
  exact h.lists ⟨rfl, rfl, rfl, rfl, rfl, rfl, rfl⟩ rfl rfl rfl rfl rfl hp
    (fun q e => ⟨rfl, rfl, upd_other e, rfl⟩) hheld (h.sess.pxminRun p)
    (fun sn' hh => (h.sess.cover p sn' (hheld sn' hh)).2)

theorem top_le {reg : List Snap} {l : Nat} {a b : Snap} (h : top reg l a = true) (hb : b ∈ reg) :
    a.loc.of l ≤ b.loc.of l := of_decide_eq_true (List.all_eq_true.1 h b hb)

/-- Without ties the smallest `xmin` is on top of one of the heaps. -/
theorem noTies_le {reg : List Snap} (h : noTies reg = true) {a b d : Snap}
    (ha : a ∈ reg) (hb : b ∈ reg) (hd : d ∈ reg)
    (ta : top reg 0 a = true) (tb : top reg 1 b = true) (td : top reg 2 d = true)
    {sn : Snap} (hsn : sn ∈ reg) : min a.xmin (min b.xmin d.xmin) ≤ sn.xmin := by
  have h1 := List.all_eq_true.1 h sn hsn
  simp only [List.any_cons, List.any_nil, Bool.or_false, Bool.or_eq_true, List.all_eq_true,
    decide_eq_true_eq] at h1
  rcases h1 with h1 | h1 | h1
  · have := h1 a ha
    have := top_le ta hsn
    omega
  · have := h1 b hb
    have := top_le tb hsn
    omega
  · have := h1 d hd
    have := top_le td hsn
    omega

theorem inv_reset (h : Inv N s) (p i j k : Nat) (hno : noTies (s.reg p) = true) :
    Inv N (tick (reset s p i j k)) := by
  unfold reset
  split
  case isFalse => exact h.ticked
  rename_i hp
  split
  · rename_i hreg
    have hheld : ∀ sn', ¬ holds (tick
        { s with
          pxmin := upd s.pxmin p none
          fresh := upd s.fresh p none }) p sn' := by
      rintro sn' (hh | hh | hh)
      · have hh' : upd s.fresh p none p = some sn' := hh
        rw [upd_same] at hh'
        cases hh'
      · have hh' : sn' ∈ s.active p := hh
        rw [hp.2] at hh'
        cases hh'
      · have hh' : sn' ∈ s.reg p := hh
        rw [hreg] at hh'
        cases hh'
    refine h.lists ⟨rfl, rfl, rfl, rfl, rfl, rfl, rfl⟩ rfl rfl rfl rfl rfl hp.1
      (fun q e => ⟨upd_other e, upd_other e, rfl, rfl⟩) (fun sn hh => (hheld sn hh).elim) ?_
      (fun sn hh => (hheld sn hh).elim)
    intro m hm
    have hm' : upd s.pxmin p none p = some m := hm
    rw [upd_same] at hm'
    cases hm'
  · split
    case h_2 => exact h.ticked
    rename_i a b d ha hb hd
    split
    case isFalse => exact h.ticked
    rename_i ht
    simp only [Bool.and_eq_true] at ht
    have ha' := List.mem_of_getElem? ha
    have hb' := List.mem_of_getElem? hb
    have hd' := List.mem_of_getElem? hd
    have key := fun sn hsn => noTies_le hno ha' hb' hd' ht.1.1 ht.1.2 ht.2 (sn := sn) hsn
    have hrun : min a.xmin (min b.xmin d.xmin) ≤ s.runXmin := by
      have := h.sess.xminRun p a (Or.inr (Or.inr ha'))
      omega
    generalize min a.xmin (min b.xmin d.xmin) = v at *
    have hheld : ∀ sn', holds (tick
        { s with
          pxmin := upd s.pxmin p ((s.pxmin p).map fun m => if m < v then v else m)
          fresh := upd s.fresh p none }) p sn' → sn' ∈ s.reg p := by
      rintro sn' (hh | hh | hh)
      · have hh' : upd s.fresh p none p = some sn' := hh
        rw [upd_same] at hh'
        cases hh'
      · have hh' : sn' ∈ s.active p := hh
        rw [hp.2] at hh'
        cases hh'
      · exact hh
    refine h.lists ⟨rfl, rfl, rfl, rfl, rfl, rfl, rfl⟩ rfl rfl rfl rfl rfl hp.1
      (fun q e => ⟨upd_other e, upd_other e, rfl, rfl⟩) (fun sn hh => Or.inr (Or.inr (hheld sn hh))) ?_ ?_
    · intro m hm
      have hm' : upd s.pxmin p ((s.pxmin p).map fun m => if m < v then v else m) p = some m := hm
      rw [upd_same] at hm'
      obtain ⟨m', e, e'⟩ := Option.map_eq_some_iff.1 hm'
      have := h.sess.pxminRun p m' e
      split at e' <;> omega
    · intro sn hh
      show ∃ m, upd s.pxmin p ((s.pxmin p).map fun m => if m < v then v else m) p = some m ∧ m ≤ sn.xmin
      have hs := hheld sn hh
      obtain ⟨_, m, e, e'⟩ := h.sess.cover p sn (Or.inr (Or.inr hs))
      rw [upd_same, e]
      refine ⟨_, rfl, ?_⟩
      have := key sn hs
      dsimp only
      split <;> omega

/-- Every action that is not the abort of an autonomous transaction keeps the invariant, except
for a reset with ties. -/
theorem inv_step (h : Inv N s) {a : Act} (hr : regular a = true) (hu : untied s a = true) :
    Inv N (step N s a) := by
  show Inv N (tick (act N s a))
  cases a with
  | begin p => exact inv_begin_ h p
  | change p k => exact inv_change h p k
  | undoOne p => exact inv_undoOne h p
  | precommit p => exact inv_precommit h p
  | number p => exact inv_number h p
  | store p => exact inv_store h p
  | abort p => exact inv_abort h p
  | aborted p => exact inv_aborted h p
  | abortAuto p => cases hr
  | lateUndo p => exact inv_lateUndo h p
  | raiseRun => exact inv_raiseRun h
  | advStart => exact inv_advStart h
  | advGo => exact inv_advGo h
  | raiseLow l => exact inv_raiseLow h l
  | take p =>
    show Inv N (tick (if p < N then take s p else s))
    split
    · rename_i hp
      exact inv_take h hp
    · exact h.ticked
  | rdGo p => exact inv_rdGo h p
  | register p => exact inv_register h p
  | activate p => exact inv_activate h p
  | activateReg p i => exact inv_activateReg h p i
  | deregister p i => exact inv_deregister h p i
  | pop p => exact inv_pop h p
  | reset p i j k => exact inv_reset h p i j k hu
  | look p i a x k => exact inv_look h p i a x k

theorem inv_run {as : List Act} : ∀ {s : St}, Inv N s → as.all regular = true →
    untiedRun N s as = true → Inv N (runActs N s as) := by
  induction as with
  | nil => exact fun h _ _ => h
  | cons a as ih =>
    intro s h hr hu
    simp only [List.all_cons, Bool.and_eq_true] at hr
    simp only [untiedRun, Bool.and_eq_true] at hu
    exact ih (inv_step h hr.1 hu.1) hr.2 hu.2

end Verif.Snapshots
