import Verif.OxidMap.Lemmas

/-!
# Steps that leave most of the state alone
-/

set_option linter.unusedVariables false

namespace Verif.OxidMap

variable {c : Cfg} {s s' : St} {p q : Nat}

theorem During.append {cl : Call} {tr mid es : List Ev} (h : During q cl tr mid)
    (he : ∀ e ∈ es, Foreign q e) : During q cl (es ++ tr) mid := by
  induction es with
  | nil => exact h
  | cons e es ih =>
    exact During.cons (ih (fun e' h' => he e' (List.mem_cons_of_mem _ h'))) (he e List.mem_cons_self)

theorem During.nowAppend {cl : Call} {tr es : List Ev} (h : During q cl tr tr)
    (he : ∀ e ∈ es, Foreign q e) : During q cl (es ++ tr) (es ++ tr) := by
  induction es with
  | nil => exact h
  | cons e es ih =>
    exact During.now (ih (fun e' h' => he e' (List.mem_cons_of_mem _ h'))) (he e List.mem_cons_self)

/-- Some buffer is just being replaced by the checkpointer. -/
def Exempt (s : St) (pg : Nat) : Prop := ∃ q t b, s.pc q = .flDisk pg t b

theorem Filed.mono {x : Nat} (h : Filed c s x) (hst : s'.st x = s.st x)
    (hf : s'.file x = s.file x) (hg : s.glob ≤ s'.glob)
    (hd : s'.fdirty (x / c.page) = false →
      s.fdirty (x / c.page) = false ∧ s'.disk x = s.disk x)
    (he : Exempt s (x / c.page) → Exempt s' (x / c.page)) : Filed c s' x := by
  obtain ⟨h1, h2⟩ := h
  refine ⟨?_, ?_⟩
  · rw [hf, hst]
    exact h1.imp id (fun h => Nat.lt_of_lt_of_le h hg)
  · intro hd' hq
    obtain ⟨e1, e2⟩ := hd hd'
    rw [hf, e2]
    refine (h2 e1 ?_).imp id (fun h => Nat.lt_of_lt_of_le h hg)
    intro q t b e
    obtain ⟨q', t', b', e'⟩ := he ⟨q, t, b, e⟩
    exact hq q' t' b' e'

theorem exempt_upd {pc' : Pc} (h : ∀ pg t b, s.pc p ≠ .flDisk pg t b)
    (hs : s'.pc = upd s.pc p pc') {pg : Nat} (he : Exempt s pg) : Exempt s' pg := by
  obtain ⟨q, t, b, e⟩ := he
  have hq : q ≠ p := by
    intro e'
    subst e'
    exact h _ _ _ e
  exact ⟨q, t, b, by rw [hs, upd_other hq]; exact e⟩

theorem not_flDisk (h : (s.pc p).holds = false) : ∀ pg t b, s.pc p ≠ .flDisk pg t b := by
  intro pg t b e
  rw [e] at h
  cases h

/-- The holder of the lock is not disturbed. -/
theorem HoldOk.frame {pc : Pc} (h : HoldOk c s pc) (hwip : s'.wip = s.wip) (hwr : s'.wr = s.wr)
    (hglob : s.glob ≤ s'.glob) (hnf : ∀ y, s.st y ≠ .frozen → s'.st y ≠ .frozen)
    (hR : ∀ y, s.wr ≤ y → y < s.wip →
      (s'.ring (y % c.size) = s.ring (y % c.size) ∧ s'.st y = s.st y) ∨
      (s.ring (y % c.size) ≠ .frozen ∧ s'.ring (y % c.size) = s'.st y))
    (hF : ∀ y, s.wr ≤ y → y < s.wip → s.ring (y % c.size) = .frozen → Filed c s y → Filed c s' y)
    (hP : ∀ pg b, (pc = .flCopy pg true b ∨ pc = .flRefresh pg true b ∨ pc = .flDisk pg true b) →
      ∀ x, x < s.wr → x / c.page = pg → s'.st x = s.st x) : HoldOk c s' pc := by
  have hD : ∀ ws xmax cur buf, Draining c s ws xmax cur buf → Draining c s' ws xmax cur buf := by
    intro ws xmax cur buf d
    have hsame : ∀ y, s.wr ≤ y → y < cur →
        s'.ring (y % c.size) = s.ring (y % c.size) ∧ s'.st y = s.st y := by
      intro y h1 h2
      have := d.curHi
      have := d.top
      rcases hR y h1 (by omega) with h | h
      · exact h
      · exact absurd (d.empty y h1 h2) h.1
    refine ⟨by rw [hwip]; exact d.top, by rw [hwr]; exact d.wsLo, d.wsCur, d.curHi,
      by rw [hwr]; exact d.hi, ?_, ?_, ?_, ?_⟩
    · intro y h1 h2
      rw [hwr] at h1
      rw [(hsame y h1 h2).1]
      exact d.empty y h1 h2
    · intro y h1 h2
      have := d.top
      have := d.wsLo
      have := d.wsCur
      rcases hR y (by omega) (by omega) with h | h
      · rw [h.1, h.2]
        exact d.ring y h1 h2
      · exact h.2
    · intro y h1 h2
      have := d.wsLo
      rw [(hsame y (by omega) h2).2]
      exact d.buf y h1 h2
    · intro y h1 h2
      rw [hwr] at h1
      have := d.wsCur
      have := d.curHi
      have := d.top
      exact hF y h1 (by omega) (d.empty y h1 (by omega)) (d.filed y h1 h2)
  have hB : ∀ pg t b, (t = true → ∀ x, x < s.wr → x / c.page = pg → s'.st x = s.st x) →
      PageBuf c s pg t b → PageBuf c s' pg t b := by
    intro pg t b ht hb
    refine ⟨by rw [hwip, hwr]; exact hb.1, ?_, ?_⟩
    · intro e x h1 h2 h3
      rw [hwr] at h2
      rw [ht e x h2 h3]
      exact (hb.2.1 e x h1 h2 h3).imp id (fun h => Nat.lt_of_lt_of_le h hglob)
    · intro e x h
      rw [hwr]
      exact hb.2.2 e x h
  cases pc with
  | scanStart t => exact hwip.trans (Eq.trans h hwr.symm)
  | scan cur xmax =>
    obtain ⟨h1, h2, h3, h4⟩ := h
    refine ⟨by rw [hwip, hwr]; exact h1, by rw [hwr]; exact h2, by rw [hwr]; exact h3, ?_⟩
    intro y hy1 hy2
    rw [hwr] at hy1
    exact hnf y (h4 y hy1 hy2)
  | drain ws xmax cur buf => exact ⟨hD _ _ _ _ h.1, h.2⟩
  | drainWrite ws we xmax buf d => exact ⟨hD _ _ _ _ h.1, h.2⟩
  | drainEnd xmax => exact hD _ _ _ _ h
  | drainUnlock => exact hwip.trans (Eq.trans h hwr.symm)
  | freeze cur g =>
    obtain ⟨h1, h2, h3, h4, h5, h6⟩ := h
    refine ⟨by rw [hwip]; exact h1, by rw [hwr]; exact h2, h3, by omega, by rw [hwr]; exact h5, ?_⟩
    intro y hy1 hy2
    rw [hwr] at hy1
    rcases hR y hy1 (by omega) with h | h
    · rw [h.1]
      exact h6 y hy1 hy2
    · exact absurd (h6 y hy1 hy2) h.1
  | flPreload pg => exact hwip.trans (Eq.trans h hwr.symm)
  | flCopy pg t b =>
    exact hB _ _ _ (fun ht => by subst ht; exact hP pg b (Or.inl rfl)) h
  | flRefresh pg t b =>
    exact hB _ _ _ (fun ht => by subst ht; exact hP pg b (Or.inr (Or.inl rfl))) h
  | flDisk pg t b =>
    exact hB _ _ _ (fun ht => by subst ht; exact hP pg b (Or.inr (Or.inr rfl))) h
  | _ => exact h

/-- The state in which session `p` moves, with events `es` that are calls or returns of `p`,
and possibly without its transaction. -/
def moved (s : St) (p : Nat) (pc' : Pc) (own' : Nat → Option Nat) (es : List Ev)
    (bits' : Nat → Bool) (spin' : Option Nat) : St :=
  { s with
    bits := bits'
    spin := spin'
    own := own'
    pc := upd s.pc p pc'
    tr := es ++ s.tr }

theorem value_append {es tr : List Ev} {x : Nat} (h : ∀ e ∈ es, ∀ y v, e ≠ .lin y v) :
    value (es ++ tr) x = value tr x := by
  induction es with
  | nil => rfl
  | cons e es ih =>
    have ih := ih (fun e' h' => h e' (List.mem_cons_of_mem _ h'))
    cases e with
    | lin y v => exact absurd rfl (h _ List.mem_cons_self y v)
    | call p c => exact ih
    | ret p c v => exact ih
    | global g => exact ih

/-- A session moves. -/
theorem Inv.move {pc' : Pc} {own' : Nat → Option Nat} {es : List Ev} {bits' : Nat → Bool}
    {spin' : Option Nat} (h : Inv c s)
    (hown : own' = s.own ∨ (own' = upd s.own p none ∧ Ended s p))
    (hes : ∀ e ∈ es, (∀ y v, e ≠ .lin y v) ∧ ∀ q, q ≠ p → Foreign q e)
    (hno : (s.pc p).holds = false) (hno' : pc'.holds = false)
    (hpc : PcOk c (moved s p pc' own' es bits' spin') p pc')
    (hresp : (s.st s.run).finished = true → Resp s (s.pc p) →
      Resp (moved s p pc' own' es bits' spin') pc')
    (hhist : C19 (es ++ s.tr)) : Inv c (moved s p pc' own' es bits' spin') := by
  have hst : ∀ x, (moved s p pc' own' es bits' spin').st x = s.st x :=
    fun x => value_append (fun e he => (hes e he).1)
  have hownq : ∀ q, q ≠ p → own' q = s.own q := by
    intro q hq
    rcases hown with e | ⟨e, _⟩
    · rw [e]
    · rw [e, upd_other hq]
  have hownS : ∀ q x, own' q = some x → s.own q = some x := by
    intro q x hx
    by_cases e : q = p
    · subst e
      rcases hown with e | ⟨e, _⟩
      · rw [← e]; exact hx
      · rw [e, upd_same] at hx
        cases hx
    · rw [← hownq q e]; exact hx
  have hext : ∀ q, q ≠ p → Ext s (moved s p pc' own' es bits' spin') q := fun q hq =>
    ⟨hownq q hq, Nat.le_refl _, Nat.le_refl _, Nat.le_refl _, Nat.le_refl _,
      fun cl mid hd => hd.append (fun e he => (hes e he).2 q hq),
      fun cl hd => hd.nowAppend (fun e he => (hes e he).2 q hq),
      fun x _ => hst x, fun x hx => by rw [hst x]; exact hx⟩
  have hfl := not_flDisk hno
  have hfiled : ∀ x, Filed c s x → Filed c (moved s p pc' own' es bits' spin') x := by
    intro x hx
    exact hx.mono (hst x) rfl (Nat.le_refl _) (fun e => ⟨e, rfl⟩) (exempt_upd hfl rfl)
  refine ⟨h.startNext, h.startGlob, h.globRun, h.startWr, h.wrWip, ?_, ?_, ?_, ?_, ?_, ?_, ?_, ?_, ?_, ?_,
    h.lockFree, ?_, ?_, ?_, ?_, ?_, ?_, hhist⟩
  · intro x hx
    rw [hst] at hx
    exact h.begun x hx
  · intro x h1 h2
    rw [hst]
    exact h.wipBegun x h1 h2
  · intro x h1 h2
    rw [hst]
    exact h.runOver x h1 h2
  · intro x q b hx
    rw [hst] at hx
    have ho := h.owner x q b hx
    rcases hown with e | ⟨e, y, hy, hfin⟩
    · exact (congrFun e q).trans ho
    · by_cases hqp : q = p
      · subst hqp
        rw [hy] at ho
        cases ho
        rw [hx] at hfin
        cases hfin
      · exact (hownq q hqp).trans ho
  · intro a b x ha hb
    exact h.uniq a b x (hownS a x ha) (hownS b x hb)
  · intro a x ha
    exact h.ownRange a x (hownS a x ha)
  · intro x h1 h2
    rw [hst]
    rcases h.owned x h1 h2 with h3 | ⟨a, ha⟩
    · exact Or.inl h3
    · rcases hown with e | ⟨e, y, hy, hfin⟩
      · exact Or.inr ⟨a, (congrFun e a).trans ha⟩
      · by_cases hap : a = p
        · subst hap
          rw [hy] at ha
          cases ha
          exact Or.inl hfin
        · exact Or.inr ⟨a, (hownq a hap).trans ha⟩
  · intro x h1 h2
    rw [hst]
    exact h.ring x h1 h2
  · intro x h1 h2
    rw [hst]
    exact h.slots x h1 h2
  · intro x h1 h2
    exact hfiled x (h.filed x h1 h2)
  · refine held_at ?_ ?_
    · intro hl
      have := h.held p hl
      cases hpc0 : s.pc p <;> rw [hpc0] at this hno <;> first | exact this.elim | cases hno
    · intro q hq hl
      refine (h.held q hl).frame rfl rfl (Nat.le_refl _) ?_ ?_ ?_ ?_
      · intro y hy
        rw [hst]
        exact hy
      · intro y _ _
        exact Or.inl ⟨rfl, hst y⟩
      · intro y _ _ _ hy
        exact hfiled y hy
      · intro pg b _ x _ _
        exact hst x
  · exact holder_at (fun e => by rw [hno'] at e; cases e) (fun q _ hq => h.holder q hq)
  · exact pcs_at hpc (fun q hq => (hext q hq).pcOk (h.pcs q))
  · intro hr
    rw [hst] at hr
    exact resp_at (h.resp hr) (hresp hr) (fun pc hp => Ext.resp rfl (Nat.le_refl _) hp)
  · intro hg
    exact List.mem_append_right _ (h.globEv hg)
  · intro x v hm
    rw [hst]
    rcases List.mem_append.1 hm with hm | hm
    · exact absurd rfl ((hes _ hm).1 x v)
    · exact h.lins x v hm

end Verif.OxidMap
