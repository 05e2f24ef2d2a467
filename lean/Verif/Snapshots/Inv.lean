import Verif.Snapshots.Spec

/-!
# The invariant of snapshots
-/

namespace Verif.Snapshots

variable {N : Nat} {s s' : St}

/-- Transaction `x` has, or has taken, a commit number below `S`. -/
def below (s : St) (S x : Nat) : Prop :=
  ∃ n, n < S ∧ (s.st x = .committed n ∨ ∃ p, s.tx p = .numbered x n)

/-- The transaction a session is in. -/
def TxPc.of : TxPc → Option Nat
  | .none => Option.none
  | .run x => some x
  | .marked x => some x
  | .numbered x _ => some x
  | .undoing x => some x
  | .late x => some x

/-- The status that goes with where a session is. -/
def TxPc.ok (s : St) : TxPc → Prop
  | .none => True
  | .run x => s.st x = .running
  | .marked x => s.st x = .committing
  | .numbered x n => s.st x = .committing ∧ n < s.nextCsn
  | .undoing x => s.st x = .running
  | .late _ => False

/-- Transactions. -/
structure TxInv (s : St) : Prop where
  runNext : s.runXmin ≤ s.next
  fin : ∀ x, x < s.runXmin → (s.st x).finished = true
  globRun : s.glob ≤ s.runXmin
  fut : ∀ x, s.next ≤ x → s.st x = .none
  none : ∀ x, s.st x = .none → s.chg x = []
  csn : ∀ x n, s.st x = .committed n → n < s.nextCsn
  tx : ∀ p, (s.tx p).ok s
  own : ∀ p q x, (s.tx p).of = some x → (s.tx q).of = some x → p = q
  abt : ∀ x, s.st x = .aborted → s.chg x = []
  commit : ∀ t x ks, .commit t x ks ∈ s.tr → t < s.clock ∧ ks = s.chg x ∧ ∃ n, s.st x = .committed n
  committed : ∀ x n, s.st x = .committed n → s.chg x = [] ∨ ∃ t, .commit t x (s.chg x) ∈ s.tr
  abort : ∀ x, .abort x ∈ s.tr → s.st x = .aborted

/-- The snapshots a session has. -/
def holds (s : St) (p : Nat) (sn : Snap) : Prop :=
  s.fresh p = some sn ∨ sn ∈ s.active p ∨ sn ∈ s.reg p

/-- The published `xmin`, and what is being taken. -/
structure SessInv (N : Nat) (s : St) : Prop where
  pxminRun : ∀ p m, s.pxmin p = some m → m ≤ s.runXmin
  cover : ∀ p sn, holds s p sn → p < N ∧ ∃ m, s.pxmin p = some m ∧ m ≤ sn.xmin
  xminRun : ∀ p sn, holds s p sn → sn.xmin ≤ s.runXmin
  take1 : ∀ p b l, s.rd p = .take1 b l → p < N ∧ b < s.clock
  take2 : ∀ p b l m, s.rd p = .take2 b l m → p < N ∧ b < s.clock ∧ m ≤ s.runXmin ∧
    ∀ m', s.pxmin p = some m' → m' ≤ m
  take3 : ∀ p b l m, s.rd p = .take3 b l m → p < N ∧ b < s.clock ∧ m ≤ s.runXmin ∧
    ∃ m', s.pxmin p = some m' ∧ m' ≤ m

/-- A snapshot taken. -/
structure SnOk (s : St) (sn : Snap) : Prop where
  csn : sn.csn ≤ s.nextCsn
  time : sn.began ≤ sn.ended ∧ sn.ended < s.clock
  fin : ∀ x, s.finAt sn.ended x = true →
    (s.st x).finished = true ∧ ∀ n, s.st x = .committed n → n < sn.csn
  xmin : ∀ x, x < sn.xmin → s.finAt sn.ended x = true
  commit : ∀ t x ks, .commit t x ks ∈ s.tr → t < sn.ended → below s sn.csn x

/-- Looking. -/
def LookOk (s : St) (sn : Snap) (x k : Nat) : Prop :=
  (below s sn.csn x → k ∈ s.chg x) ∧ (s.finAt sn.ended x = true → s.st x ≠ .aborted)

/-- Snapshots. -/
structure SnInv (s : St) : Prop where
  adv : ∀ i g, s.adv = some (i, g) → g ≤ s.runXmin
  took : ∀ sn, .took sn ∈ s.tr → SnOk s sn
  order : ∀ sn sn', .took sn ∈ s.tr → .took sn' ∈ s.tr → sn.ended ≤ sn'.ended → sn.csn ≤ sn'.csn
  held : ∀ p sn, holds s p sn → .took sn ∈ s.tr
  glob : ∀ p sn, holds s p sn → ∀ x, x < s.glob → s.finAt sn.ended x = true
  scan : ∀ p sn i g, holds s p sn → s.adv = some (i, g) → p < i → ∀ x, x < g →
    s.finAt sn.ended x = true
  page : ∀ p sn x k, s.rd p = .page sn x k → inUse s p sn
  check : ∀ p sn x k, s.rd p = .check sn x k → inUse s p sn ∧ LookOk s sn x k
  map : ∀ p sn x k, s.rd p = .map sn x k → inUse s p sn ∧ LookOk s sn x k
  lookTook : ∀ sn x k r, .look sn x k r ∈ s.tr → .took sn ∈ s.tr
  lookTrue : ∀ sn x k, .look sn x k true ∈ s.tr → k ∈ s.chg x ∧ ∃ n, n < sn.csn ∧ s.st x = .committed n
  lookFalse : ∀ sn x k, .look sn x k false ∈ s.tr → ¬ (below s sn.csn x ∧ k ∈ s.chg x)

structure Inv (N : Nat) (s : St) : Prop where
  tx : TxInv s
  sess : SessInv N s
  sn : SnInv s

/-! ## Everything follows -/

theorem below_iff (h : TxInv s) {S x n : Nat} (hx : s.st x = .committed n) :
    below s S x ↔ n < S := by
  constructor
  · rintro ⟨m, h1, h2 | ⟨p, h2⟩⟩
    · rw [hx] at h2
      cases h2
      exact h1
    · have := h.tx p
      rw [h2] at this
      rw [this.1] at hx
      cases hx
  · exact fun h1 => ⟨n, h1, Or.inl hx⟩

theorem Inv.c21 (h : Inv N s) : C21 s.tr := by
  have key : ∀ sn x k, .look sn x k true ∈ s.tr → .look sn x k false ∈ s.tr → False := by
    intro sn x k h1 h2
    obtain ⟨a, n, b, c⟩ := h.sn.lookTrue _ _ _ h1
    exact h.sn.lookFalse _ _ _ h2 ⟨(below_iff h.tx c).2 b, a⟩
  intro sn x k r r' h1 h2
  cases r <;> cases r'
  · rfl
  · exact (key _ _ _ h2 h1).elim
  · exact (key _ _ _ h1 h2).elim
  · rfl

theorem Inv.c22 (h : Inv N s) : C22 s.tr := by
  refine ⟨?_, ?_, ?_⟩
  · intro sn x k h1
    obtain ⟨a, n, b, c⟩ := h.sn.lookTrue _ _ _ h1
    rcases h.tx.committed x n c with e | ⟨t, e⟩
    · rw [e] at a
      cases a
    · refine ⟨t, _, e, a, ?_⟩
      intro k' hk r hr
      cases r
      · exact (h.sn.lookFalse _ _ _ hr ⟨(below_iff h.tx c).2 b, hk⟩).elim
      · rfl
  · intro t x ks sn k r h1 h2 h3 h4
    obtain ⟨_, e, n, c⟩ := h.tx.commit _ _ _ h1
    have hs := h.sn.took _ (h.sn.lookTook _ _ _ _ h4)
    cases r
    · refine (h.sn.lookFalse _ _ _ h4 ⟨hs.commit _ _ _ h1 ?_, e ▸ h2⟩).elim
      have := hs.time.1
      omega
    · rfl
  · intro sn sn' x k r h1 h2 h3
    obtain ⟨a, n, b, c⟩ := h.sn.lookTrue _ _ _ h1
    have t1 := h.sn.lookTook _ _ _ _ h1
    have t2 := h.sn.lookTook _ _ _ _ h3
    have hs := h.sn.took _ t2
    cases r
    · refine (h.sn.lookFalse _ _ _ h3 ⟨(below_iff h.tx c).2 ?_, a⟩).elim
      have := h.sn.order _ _ t1 t2 (by have := hs.time.1; omega)
      omega
    · rfl

theorem Inv.c49 (h : Inv N s) : C49 s.tr := by
  intro sn x k h1 h2
  obtain ⟨_, n, _, c⟩ := h.sn.lookTrue _ _ _ h1
  rw [h.tx.abort x h2] at c
  cases c

theorem Inv.c50 (h : Inv N s) : C50 s :=
  fun p sn hu => (h.sess.cover p sn (Or.inr hu)).2

theorem inv_init (n : Nat) : Inv N (init n) := by
  refine ⟨⟨Nat.le_refl _, ?_, Nat.le_refl _, ?_, fun _ _ => rfl, ?_, fun _ => trivial, ?_, fun _ _ => rfl,
    ?_, fun _ _ _ => Or.inl rfl, ?_⟩, ⟨?_, ?_, ?_, ?_, ?_, ?_⟩, ⟨?_, ?_, ?_, ?_, ?_, ?_, ?_, ?_, ?_, ?_, ?_, ?_⟩⟩
  · intro x h
    have h' : x < n := h
    simp only [init, if_pos h', Status.finished]
  · intro x h
    have h' : ¬ x < n := Nat.not_lt.2 h
    simp only [init, if_neg h']
  · intro x m h
    simp only [init] at h ⊢
    split at h
    · cases h
      omega
    · cases h
  all_goals intros; simp_all [init, holds, TxPc.of]

/-! ## What the other sessions and transactions may do -/

/-- How a step may change transactions, as far as snapshots are concerned. -/
structure Evo (s s' : St) : Prop where
  fin : ∀ x, (s.st x).finished = true → s'.st x = s.st x ∧ s'.chg x = s.chg x
  below : ∀ S x, S ≤ s.nextCsn → (below s' S x ↔ below s S x)
  chg : ∀ S x, S ≤ s.nextCsn → Verif.Snapshots.below s S x → s'.chg x = s.chg x
  csn : s.nextCsn ≤ s'.nextCsn
  clock : s.clock < s'.clock
  finAt : ∀ t, t < s.clock → s'.finAt t = s.finAt t
  commit : ∀ t x ks, .commit t x ks ∈ s'.tr → .commit t x ks ∈ s.tr ∨ t = s.clock
  run : s.runXmin ≤ s'.runXmin

theorem SnOk.evo {sn : Snap} (h : SnOk s sn) (e : Evo s s') : SnOk s' sn := by
  have h1 := h.time
  have h2 := e.clock
  refine ⟨Nat.le_trans h.csn e.csn, ⟨h1.1, by omega⟩, ?_, ?_, ?_⟩
  · intro x hx
    rw [e.finAt _ h1.2] at hx
    rw [(e.fin x (h.fin x hx).1).1]
    exact h.fin x hx
  · intro x hx
    rw [e.finAt _ h1.2]
    exact h.xmin x hx
  · intro t x ks hc ht
    rcases e.commit t x ks hc with hc | hc
    · exact (e.below _ _ h.csn).2 (h.commit t x ks hc ht)
    · omega

theorem LookOk.evo {sn : Snap} {x k : Nat} (hs : SnOk s sn) (h : LookOk s sn x k) (e : Evo s s') :
    LookOk s' sn x k := by
  refine ⟨?_, ?_⟩
  · intro hb
    have hb' := (e.below _ _ hs.csn).1 hb
    rw [e.chg _ _ hs.csn hb']
    exact h.1 hb'
  · intro hf
    rw [e.finAt _ hs.time.2] at hf
    rw [(e.fin x (hs.fin x hf).1).1]
    exact h.2 hf

/-- Steps that leave snapshots and the sessions' use of them alone. -/
theorem SnInv.frame (h : SnInv s) (e : Evo s s')
    (hadv : s'.adv = s.adv) (hglob : s'.glob = s.glob) (hrd : s'.rd = s.rd)
    (hfresh : s'.fresh = s.fresh) (hactive : s'.active = s.active) (hreg : s'.reg = s.reg)
    (htook : ∀ sn, .took sn ∈ s'.tr ↔ .took sn ∈ s.tr)
    (hlook : ∀ sn x k r, .look sn x k r ∈ s'.tr ↔ .look sn x k r ∈ s.tr) : SnInv s' := by
  have hheld : ∀ p sn, holds s' p sn ↔ holds s p sn := by
    intro p sn
    rw [holds, holds, hfresh, hactive, hreg]
  have huse : ∀ p sn, inUse s' p sn ↔ inUse s p sn := by
    intro p sn
    rw [inUse, inUse, hactive, hreg]
  have ok : ∀ p sn, inUse s p sn → SnOk s sn := fun p sn hu => h.took sn (h.held p sn (Or.inr hu))
  refine ⟨?_, ?_, ?_, ?_, ?_, ?_, ?_, ?_, ?_, ?_, ?_, ?_⟩
  · intro i g hg
    rw [hadv] at hg
    exact Nat.le_trans (h.adv i g hg) e.run
  · exact fun sn hs => (h.took sn ((htook sn).1 hs)).evo e
  · exact fun sn sn' h1 h2 => h.order sn sn' ((htook sn).1 h1) ((htook sn').1 h2)
  · exact fun p sn hh => (htook sn).2 (h.held p sn ((hheld p sn).1 hh))
  · intro p sn hh x hx
    have hh := (hheld p sn).1 hh
    rw [hglob] at hx
    rw [e.finAt _ (h.took sn (h.held p sn hh)).time.2]
    exact h.glob p sn hh x hx
  · intro p sn i g hh ha hi x hx
    have hh := (hheld p sn).1 hh
    rw [hadv] at ha
    rw [e.finAt _ (h.took sn (h.held p sn hh)).time.2]
    exact h.scan p sn i g hh ha hi x hx
  · intro p sn x k hr
    rw [hrd] at hr
    exact (huse p sn).2 (h.page p sn x k hr)
  · intro p sn x k hr
    rw [hrd] at hr
    obtain ⟨a, b⟩ := h.check p sn x k hr
    exact ⟨(huse p sn).2 a, b.evo (ok p sn a) e⟩
  · intro p sn x k hr
    rw [hrd] at hr
    obtain ⟨a, b⟩ := h.map p sn x k hr
    exact ⟨(huse p sn).2 a, b.evo (ok p sn a) e⟩
  · exact fun sn x k r hl => (htook sn).2 (h.lookTook sn x k r ((hlook sn x k r).1 hl))
  · intro sn x k hl
    obtain ⟨a, n, b, c⟩ := h.lookTrue sn x k ((hlook _ _ _ _).1 hl)
    have := e.fin x (by rw [c]; rfl)
    rw [this.1, this.2]
    exact ⟨a, n, b, c⟩
  · intro sn x k hl
    have hl := (hlook _ _ _ _).1 hl
    have hs := (h.took sn (h.lookTook _ _ _ _ hl)).csn
    rintro ⟨hb, hk⟩
    have hb := (e.below _ _ hs).1 hb
    rw [e.chg _ _ hs hb] at hk
    exact h.lookFalse sn x k hl ⟨hb, hk⟩

theorem SessInv.frame (h : SessInv N s) (hrun : s.runXmin ≤ s'.runXmin) (hclock : s.clock ≤ s'.clock)
    (hpx : s'.pxmin = s.pxmin) (hrd : s'.rd = s.rd)
    (hfresh : s'.fresh = s.fresh) (hactive : s'.active = s.active) (hreg : s'.reg = s.reg) :
    SessInv N s' := by
  refine ⟨?_, ?_, ?_, ?_, ?_, ?_⟩
  · intro p m hm
    rw [hpx] at hm
    exact Nat.le_trans (h.pxminRun p m hm) hrun
  · intro p sn hh
    rw [hpx]
    apply h.cover p sn
    rw [holds, hfresh, hactive, hreg] at hh
    exact hh
  · intro p sn hh
    rw [holds, hfresh, hactive, hreg] at hh
    exact Nat.le_trans (h.xminRun p sn hh) hrun
  · intro p b l hr
    rw [hrd] at hr
    have := h.take1 p b l hr
    omega
  · intro p b l m hr
    rw [hrd] at hr
    rw [hpx]
    have := h.take2 p b l m hr
    exact ⟨this.1, by omega, by omega, this.2.2.2⟩
  · intro p b l m hr
    rw [hrd] at hr
    rw [hpx]
    have := h.take3 p b l m hr
    exact ⟨this.1, by omega, by omega, this.2.2.2⟩

end Verif.Snapshots
