import Verif.OxidMap.Inv

/-!
# Lemmas about the invariant
-/

set_option linter.unusedVariables false

namespace Verif.OxidMap

variable {c : Cfg} {s s' : St} {p q : Nat}

/-! ## Slots of the ring -/

theorem slot_inj {n w x y : Nat} (hn : 0 < n) (hx1 : w ≤ x) (hx2 : x < w + n) (hy1 : w ≤ y)
    (hy2 : y < w + n) (h : x % n = y % n) : x = y := by
  have ex := Nat.div_add_mod x n
  have ey := Nat.div_add_mod y n
  rcases Nat.lt_trichotomy (x / n) (y / n) with hlt | heq | hgt
  · have h1 : n * (x / n + 1) ≤ n * (y / n) := Nat.mul_le_mul_left n hlt
    rw [Nat.mul_succ] at h1
    omega
  · rw [heq] at ex
    omega
  · have h1 : n * (y / n + 1) ≤ n * (x / n) := Nat.mul_le_mul_left n hgt
    rw [Nat.mul_succ] at h1
    omega

theorem slot_ex {n w i : Nat} (hi : i < n) : ∃ y, w ≤ y ∧ y < w + n ∧ y % n = i := by
  have hn : 0 < n := by omega
  have hw : w % n < n := Nat.mod_lt _ hn
  by_cases h : w % n ≤ i
  · refine ⟨w + (i - w % n), by omega, by omega, ?_⟩
    have e := Nat.div_add_mod w n
    have : w + (i - w % n) = n * (w / n) + i := by omega
    rw [this, Nat.mul_add_mod, Nat.mod_eq_of_lt hi]
  · refine ⟨w + (n + i - w % n), by omega, by omega, ?_⟩
    have e := Nat.div_add_mod w n
    have : w + (n + i - w % n) = n * (w / n + 1) + i := by rw [Nat.mul_succ]; omega
    rw [this, Nat.mul_add_mod, Nat.mod_eq_of_lt hi]

theorem upd_same {α : Type} {f : Nat → α} {i : Nat} {a : α} : upd f i a i = a := if_pos rfl

theorem upd_other {α : Type} {f : Nat → α} {i j : Nat} {a : α} (h : j ≠ i) : upd f i a j = f j :=
  if_neg h

/-! ## Sessions not moved -/

/-- What other sessions may do to a session's view. -/
structure Ext (s s' : St) (q : Nat) : Prop where
  own : s'.own q = s.own q
  wip : s.wip ≤ s'.wip
  wr : s.wr ≤ s'.wr
  run : s.run ≤ s'.run
  glob : s.glob ≤ s'.glob
  dur : ∀ cl mid, During q cl s.tr mid → During q cl s'.tr mid
  now : ∀ cl, During q cl s.tr s.tr → During q cl s'.tr s'.tr
  st : ∀ x, s.own q = some x → s'.st x = s.st x
  fin : ∀ x, (s.st x).finished = true → (s'.st x).finished = true

theorem Ext.running (e : Ext s s' q) (h : Running s q) : Running s' q := by
  intro x hx
  rw [e.own] at hx
  rw [e.st x hx]
  exact h x hx

theorem Ext.ended (e : Ext s s' q) (h : Ended s q) : Ended s' q := by
  obtain ⟨x, h1, h2⟩ := h
  exact ⟨x, by rw [e.own]; exact h1, e.fin x h2⟩

theorem Ext.setting (e : Ext s s' q) {x : Nat} {v : Csn} (h : Setting s q x v) :
    Setting s' q x v :=
  ⟨by rw [e.own]; exact h.own, h.ok, e.now _ h.now⟩

theorem Ext.isSet (e : Ext s s' q) {x : Nat} {v : Csn} (ho : s.own q = some x)
    (h : IsSet s q x v) : IsSet s' q x v := by
  obtain ⟨h1, mid, h2⟩ := h
  exact ⟨by rw [e.st x ho]; exact h1, mid, e.dur _ _ h2⟩

theorem Ext.maySet (e : Ext s s' q) {x : Nat} {v : Csn} {d : Bool} (ho : s.own q = some x)
    (h : MaySet s q x v d) : MaySet s' q x v d :=
  ⟨fun hd => e.isSet ho (h.1 hd), fun hd => by rw [e.st x ho]; exact h.2 hd⟩

theorem Ext.seen (e : Ext s s' q) {run : Bool} {x : Nat} {v : Csn} (h : Seen s q run x v) :
    Seen s' q run x v := by
  cases run with
  | true => exact fun hv => e.fin x (h hv)
  | false =>
    obtain ⟨mid, h1, h2⟩ := h
    exact ⟨mid, e.dur _ _ h1, h2⟩

theorem Ext.qOk (e : Ext s s' q) {run : Bool} {x : Nat} {k : Q} (h : QOk s q run x k) :
    QOk s' q run x k := by
  have := e.wip
  have := e.wr
  have := e.glob
  cases k with
  | ring => trivial
  | wip v => exact fun hx => e.seen (h (by omega))
  | written => exact Nat.lt_of_lt_of_le h e.wip
  | lock => exact Nat.lt_of_lt_of_le h e.wip
  | file => exact Nat.lt_of_lt_of_le h e.wr
  | glob v =>
    rcases h with h | h
    · exact Or.inl (by omega)
    · exact Or.inr (e.seen h)

theorem Ext.pcOk (e : Ext s s' q) {pc : Pc} (h : PcOk c s q pc) : PcOk c s' q pc := by
  have hw := e.wip
  have hr := e.wr
  have hg := e.run
  cases pc with
  | beginWait x => exact ⟨e.setting h.1, by rw [e.st x h.1.own]; exact h.2⟩
  | setOld x v => exact ⟨e.setting h.1, by rw [e.st x h.1.own]; exact h.2⟩
  | setWip x v old =>
    exact ⟨e.setting h.1, by rw [e.st x h.1.own]; exact h.2.1,
      fun hx => by rw [e.st x h.1.own]; exact h.2.2 (by omega)⟩
  | setCas x v old =>
    exact ⟨e.setting h.1, by rw [e.st x h.1.own]; exact h.2.1, by rw [e.st x h.1.own]; exact h.2.2⟩
  | setDirty x v => exact ⟨e.setting h.1, e.isSet h.1.own h.2⟩
  | setRecheck x v => exact ⟨e.setting h.1, e.isSet h.1.own h.2⟩
  | setWritten x v d =>
    exact ⟨e.setting h.1, e.maySet h.1.own h.2.1, Nat.lt_of_lt_of_le h.2.2 hw⟩
  | setLock x v d => exact ⟨e.setting h.1, e.maySet h.1.own h.2.1, Nat.lt_of_lt_of_le h.2.2 hw⟩
  | setFile x v d => exact ⟨e.setting h.1, e.maySet h.1.own h.2.1, Nat.lt_of_lt_of_le h.2.2 hr⟩
  | runRead x => exact ⟨by rw [e.own]; exact h.1, e.fin x h.2⟩
  | runCas r => exact ⟨e.ended h.1, h.2.1, Nat.le_trans h.2.2.1 hg, e.fin _ h.2.2.2⟩
  | map run x k =>
    cases run with
    | true =>
      obtain ⟨h1, h2, h3, h4, h5⟩ := h
      exact ⟨e.ended h1, h2, by omega, by omega, e.qOk h5⟩
    | false =>
      obtain ⟨h1, h2, h3, h4, h5⟩ := h
      exact ⟨e.running h1, h2, by omega, e.now _ h4, e.qOk h5⟩
  | idle => exact e.running h
  | scanStart _ => exact e.running h
  | scan _ _ => exact e.running h
  | drain _ _ _ _ => exact e.running h
  | drainWrite _ _ _ _ _ => exact e.running h
  | drainEnd _ => exact e.running h
  | drainUnlock => exact e.running h
  | freeze _ _ => exact e.running h
  | flPreload _ => exact e.running h
  | flCopy _ _ _ => exact e.running h
  | flRefresh _ _ _ => exact e.running h
  | flDisk _ _ _ => exact e.running h

theorem Ext.resp (hrun : s'.run = s.run) (hw : s.wip ≤ s'.wip) {pc : Pc} (h : Resp s pc) :
    Resp s' pc := by
  cases pc with
  | map run x k =>
    cases run with
    | false => exact h
    | true =>
      cases k with
      | wip v => exact ⟨by rw [hrun]; exact h.1, h.2.imp id (fun h => Nat.lt_of_lt_of_le h hw)⟩
      | glob v => exact ⟨by rw [hrun]; exact h.1, h.2⟩
      | ring => exact Eq.trans h hrun.symm
      | written => exact Eq.trans h hrun.symm
      | lock => exact Eq.trans h hrun.symm
      | file => exact Eq.trans h hrun.symm
  | setDirty x v => exact Eq.trans h hrun.symm
  | setRecheck x v => exact Eq.trans h hrun.symm
  | setWritten x v d => exact ⟨Eq.trans h.1 hrun.symm, h.2⟩
  | setLock x v d => exact ⟨Eq.trans h.1 hrun.symm, h.2⟩
  | setFile x v d => exact ⟨Eq.trans h.1 hrun.symm, h.2⟩
  | runRead x => exact Eq.trans h hrun.symm
  | runCas r => exact Eq.trans h hrun.symm
  | idle => exact h
  | beginWait _ => exact h
  | setOld _ _ => exact h
  | setWip _ _ _ => exact h
  | setCas _ _ _ => exact h
  | scanStart _ => exact h
  | scan _ _ => exact h
  | drain _ _ _ _ => exact h
  | drainWrite _ _ _ _ _ => exact h
  | drainEnd _ => exact h
  | drainUnlock => exact h
  | freeze _ _ => exact h
  | flPreload _ => exact h
  | flCopy _ _ _ => exact h
  | flRefresh _ _ _ => exact h
  | flDisk _ _ _ => exact h

/-! ## Histories -/

theorem C19.cons {tr : List Ev} {e : Ev} (h : C19 tr)
    (hg : ∀ p x v, e = .ret p (.get x) v →
      (∃ mid, During p (.get x) tr mid ∧ value mid x = v) ∨
      (v = .frozen ∧ (value tr x).finished = true ∧ ∃ g, Ev.global g ∈ tr ∧ x < g))
    (hs : ∀ p x v, e = .ret p (.set x v) v → ∃ mid, During p (.set x v) tr (.lin x v :: mid))
    (hl : ∀ x v, e = .lin x v → ∃ p, During p (.set x v) tr tr) : C19 (e :: tr) := by
  refine ⟨?_, ?_, ?_⟩
  · intro later p x v earlier he
    cases later with
    | nil =>
      injection he with h1 h2
      subst h2
      exact hg p x v h1
    | cons a l =>
      injection he with h1 h2
      exact h.1 l p x v earlier h2
  · intro later p x v earlier he
    cases later with
    | nil =>
      injection he with h1 h2
      subst h2
      exact hs p x v h1
    | cons a l =>
      injection he with h1 h2
      exact h.2.1 l p x v earlier h2
  · intro later x v earlier he
    cases later with
    | nil =>
      injection he with h1 h2
      subst h2
      exact hl x v h1
    | cons a l =>
      injection he with h1 h2
      exact h.2.2 l x v earlier h2

/-! ## Moving one session -/

theorem pcs_at {pc' : Pc} (hp : PcOk c s' p pc') (ho : ∀ q, q ≠ p → PcOk c s' q (s.pc q)) :
    ∀ q, PcOk c s' q (upd s.pc p pc' q) := by
  intro q
  by_cases h : q = p
  · subst h; rw [upd_same]; exact hp
  · rw [upd_other h]; exact ho q h

theorem held_at {pc' : Pc} {l : Option Nat} (hp : l = some p → HoldOk c s' pc')
    (ho : ∀ q, q ≠ p → l = some q → HoldOk c s' (s.pc q)) :
    ∀ q, l = some q → HoldOk c s' (upd s.pc p pc' q) := by
  intro q hq
  by_cases h : q = p
  · subst h; rw [upd_same]; exact hp hq
  · rw [upd_other h]; exact ho q h hq

theorem holder_at {pc' : Pc} {l : Option Nat} (hp : pc'.holds = true → l = some p)
    (ho : ∀ q, q ≠ p → (s.pc q).holds = true → l = some q) :
    ∀ q, (upd s.pc p pc' q).holds = true → l = some q := by
  intro q hq
  by_cases h : q = p
  · subst h; rw [upd_same] at hq; exact hp hq
  · rw [upd_other h] at hq; exact ho q h hq

theorem resp_at {pc' : Pc} (h : ∃ q, Resp s (s.pc q)) (hp : Resp s (s.pc p) → Resp s' pc')
    (ho : ∀ pc, Resp s pc → Resp s' pc) : ∃ q, Resp s' (upd s.pc p pc' q) := by
  obtain ⟨q, hq⟩ := h
  by_cases e : q = p
  · subst e
    exact ⟨q, by rw [upd_same]; exact hp hq⟩
  · exact ⟨q, by rw [upd_other e]; exact ho _ hq⟩

end Verif.OxidMap
