import Verif.OxidMap.StepSet

/-!
# Steps with the lock
-/

set_option linter.unusedVariables false

namespace Verif.OxidMap

variable {c : Cfg} {s s' : St} {p q : Nat}

theorem pcOk_running {pc : Pc} (h : pc.holds = true ∨ pc = .idle) :
    PcOk c s p pc ↔ Running s p := by
  cases pc <;> first | exact Iff.rfl | (rcases h with h | h <;> cases h)

theorem resp_holds {pc : Pc} (h : pc.holds = true ∨ pc = .idle) : ¬ Resp s pc := by
  cases pc <;> first | exact id | (rcases h with h | h <;> cases h)

/-- A step of a session that has the lock, or takes it. -/
theorem Inv.hold {pc' : Pc} (h : Inv c s) (hl : ∀ q, q ≠ p → s.lock ≠ some q)
    (hpc : (s.pc p).holds = true ∨ s.pc p = .idle) (hpc' : pc'.holds = true ∨ pc' = .idle)
    (e_tr : s'.tr = s.tr) (e_own : s'.own = s.own) (e_run : s'.run = s.run)
    (e_next : s'.next = s.next) (e_glob : s'.glob = s.glob) (l_wip : s.wip ≤ s'.wip)
    (l_wr : s.wr ≤ s'.wr) (e_pc : s'.pc = upd s.pc p pc') (wrWip : s'.wr ≤ s'.wip)
    (wipBegun : ∀ x, s.wip ≤ x → x < s'.wip → s.st x ≠ .frozen)
    (ring : ∀ x, s'.wip ≤ x → x < s'.wr + c.size → s'.ring (x % c.size) = s.st x)
    (slots : ∀ x, s'.wr ≤ x → x < s'.wr + c.size →
      s'.ring (x % c.size) = s.st x ∨ s'.ring (x % c.size) = .frozen)
    (filed : ∀ x, c.start ≤ x → x < s'.wr → Filed c s' x)
    (hold : (s'.lock = some p ∧ HoldOk c s' pc') ∨
      (s'.lock = none ∧ s'.wip = s'.wr ∧ pc' = .idle)) : Inv c s' := by
  have hst : ∀ x, s'.st x = s.st x := by
    intro x
    show value s'.tr x = value s.tr x
    rw [e_tr]
  have hext : ∀ q, Ext s s' q := fun q =>
    ⟨by rw [e_own], l_wip, l_wr, by rw [e_run]; exact Nat.le_refl _,
      by rw [e_glob]; exact Nat.le_refl _, fun cl mid hd => by rw [e_tr]; exact hd,
      fun cl hd => by rw [e_tr]; exact hd, fun x _ => hst x, fun x hx => by rw [hst]; exact hx⟩
  have hnone : ∀ q, q ≠ p → (s.pc q).holds = false := by
    intro q hq
    cases e : (s.pc q).holds with
    | false => rfl
    | true => exact absurd (h.holder q e) (hl q hq)
  constructor
  case startNext => rw [e_next]; exact h.startNext
  case startGlob => rw [e_glob]; exact h.startGlob
  case globRun => rw [e_glob, e_run]; exact h.globRun
  case startWr => exact Nat.le_trans h.startWr l_wr
  case wrWip => exact wrWip
  case begun =>
    intro x hx
    rw [hst] at hx
    have := h.begun x hx
    rw [e_next]
    exact ⟨this.1, this.2.1, by omega⟩
  case wipBegun =>
    intro x h1 h2
    rw [hst]
    rcases Nat.lt_or_ge x s.wip with h3 | h3
    · exact h.wipBegun x h1 h3
    · exact wipBegun x h3 h2
  case runOver => rw [e_run]; intro x h1 h2; rw [hst]; exact h.runOver x h1 h2
  case owner => intro x q b hx; rw [hst] at hx; rw [e_own]; exact h.owner x q b hx
  case uniq => rw [e_own]; exact h.uniq
  case ownRange => rw [e_own, e_next]; exact h.ownRange
  case owned => rw [e_own, e_next]; intro x h1 h2; rw [hst]; exact h.owned x h1 h2
  case ring => intro x h1 h2; rw [hst]; exact ring x h1 h2
  case slots => intro x h1 h2; rw [hst]; exact slots x h1 h2
  case filed => exact filed
  case lockFree =>
    intro e
    rcases hold with ⟨h1, _⟩ | ⟨_, h2, _⟩
    · rw [h1] at e
      cases e
    · exact h2
  case held =>
    intro q hq
    rcases hold with ⟨h1, h2⟩ | ⟨h1, _⟩
    · rw [h1] at hq
      cases hq
      rw [e_pc, upd_same]
      exact h2
    · rw [h1] at hq
      cases hq
  case holder =>
    rw [e_pc]
    refine holder_at ?_ ?_
    · intro e
      rcases hold with ⟨h1, _⟩ | ⟨_, _, h3⟩
      · exact h1
      · subst h3
        cases e
    · intro q hq e
      rw [hnone q hq] at e
      cases e
  case pcs =>
    rw [e_pc]
    refine pcs_at ?_ (fun q hq => (hext q).pcOk (h.pcs q))
    rw [pcOk_running hpc']
    exact (hext p).running ((pcOk_running hpc).1 (h.pcs p))
  case resp =>
    intro hr
    rw [e_run, hst] at hr
    rw [e_pc]
    exact resp_at (h.resp hr) (fun hp => absurd hp (resp_holds hpc))
      (fun pc hp => Ext.resp e_run l_wip hp)
  case globEv => rw [e_glob, e_tr]; exact h.globEv
  case lins => intro x v hm; rw [e_tr] at hm; rw [hst]; exact h.lins x v hm
  case hist => rw [e_tr]; exact h.hist

theorem Inv.noLock (h : s.lock = none) : ∀ q, q ≠ p → s.lock ≠ some q := by
  intro q _ e
  rw [h] at e
  cases e

theorem Inv.myLock (h : s.lock = some p) : ∀ q, q ≠ p → s.lock ≠ some q := by
  intro q hq e
  rw [h] at e
  cases e
  exact hq rfl

/-- Only the lock holder's position matters for the files. -/
theorem Inv.filedKeep {pc' : Pc} (e_tr : s'.tr = s.tr) (e_file : s'.file = s.file)
    (e_fd : s'.fdirty = s.fdirty) (e_disk : s'.disk = s.disk) (e_glob : s'.glob = s.glob)
    (e_pc : s'.pc = upd s.pc p pc') (hfl : ∀ pg t b, s.pc p ≠ .flDisk pg t b) {x : Nat}
    (hf : Filed c s x) : Filed c s' x :=
  hf.mono (by show value s'.tr x = value s.tr x; rw [e_tr]) (by rw [e_file])
    (by rw [e_glob]; exact Nat.le_refl _) (fun e => ⟨by rw [← e_fd]; exact e, by rw [e_disk]⟩)
    (exempt_upd hfl e_pc)

/-- The lock is taken. -/
theorem Inv.take {pc' : Pc} {bits' : Nat → Bool} (h : Inv c s) (hp : s.pc p = .idle)
    (hl : s.lock = none) (hpc' : pc'.holds = true)
    (hok : ∀ s' : St, s'.wip = s'.wr → HoldOk c s' pc') :
    Inv c (({ s with
      lock := some p
      bits := bits' } : St).at p pc') := by
  refine h.hold (pc' := pc') (Inv.noLock hl) (Or.inr hp) (Or.inl hpc') rfl rfl rfl rfl rfl
    (Nat.le_refl _) (Nat.le_refl _) rfl h.wrWip ?_ h.ring h.slots ?_ (Or.inl ⟨rfl, ?_⟩)
  · intro x h1 h2
    exact absurd (Nat.lt_of_le_of_lt h1 h2) (Nat.lt_irrefl _)
  · intro x h1 h2
    refine Inv.filedKeep (s := s) (p := p) (pc' := pc') ?_ ?_ ?_ ?_ ?_ ?_
      (by rw [hp]; intro _ _ _ e; cases e) (h.filed x h1 h2) <;> rfl
  · exact hok _ (h.lockFree hl)

/-- A state in which `globalXmin` is raised. -/
theorem Inv.raise {g : Nat} (h : Inv c s) (hg : g ≤ s.run) :
    Inv c (({ s with glob := max s.glob g } : St).ev (.global g)) := by
  have hm : s.glob ≤ max s.glob g := Nat.le_max_left _ _
  have hr := h.globRun
  have hfiled : ∀ x, Filed c s x → Filed c (({ s with glob := max s.glob g } : St).ev (.global g)) x :=
    fun x hf => hf.mono (s' := ({ s with glob := max s.glob g } : St).ev (.global g)) rfl rfl hm
      (fun e => ⟨e, rfl⟩) id
  refine ⟨h.startNext, Nat.le_trans h.startGlob hm, Nat.max_le.2 ⟨hr, hg⟩, h.startWr, h.wrWip,
    h.begun, h.wipBegun, h.runOver, h.owner, h.uniq, h.ownRange, h.owned, h.ring, h.slots,
    fun x h1 h2 => hfiled x (h.filed x h1 h2), h.lockFree, ?_, h.holder, ?_, ?_, ?_, ?_, ?_⟩
  · intro q hq
    exact (h.held q hq).frame rfl rfl hm (fun _ hy => hy) (fun _ _ _ => Or.inl ⟨rfl, rfl⟩)
      (fun y _ _ _ hf => hfiled y hf) (fun _ _ _ _ _ _ => rfl)
  · intro q
    exact Ext.pcOk (s := s) (s' := ({ s with glob := max s.glob g } : St).ev (.global g))
      ⟨rfl, Nat.le_refl _, Nat.le_refl _, Nat.le_refl _, hm, fun _ _ hd => hd.cons Foreign.global,
        fun _ hd => hd.now Foreign.global, fun _ _ => rfl, fun _ hx => hx⟩ (h.pcs q)
  · intro hr
    obtain ⟨q, hq⟩ := h.resp hr
    exact ⟨q, Ext.resp rfl (Nat.le_refl _) hq⟩
  · intro hgl
    have hgl' : c.start < max s.glob g := hgl
    show Ev.global (max s.glob g) ∈ Ev.global g :: s.tr
    rcases Nat.le_total s.glob g with e | e
    · rw [Nat.max_eq_right e]
      exact List.mem_cons_self
    · rw [Nat.max_eq_left e] at hgl' ⊢
      exact List.mem_cons_of_mem _ (h.globEv hgl')
  · intro x v hm
    rcases List.mem_cons.1 hm with hm | hm
    · cases hm
    · exact h.lins x v hm
  · exact h.hist.cons (fun _ _ _ e => by cases e) (fun _ _ _ e => by cases e)
      (fun _ _ e => by cases e)

theorem Inv.adv {g : Nat} {t : Bool} (h : Inv c s) : Inv c (step c s (.adv p g t)) := by
  rw [step]
  split
  · rename_i hc
    obtain ⟨hi, hs, hg⟩ := hc
    have hp := pc_idle hi
    have h1 := h.raise hg
    split
    · rename_i hd
      obtain ⟨d1, d2, d3, _⟩ := hd
      have hsw := h.startWr
      have hrun := h.runOver (s.run - 1) (by omega) (by omega)
      have hhi : s.run < s.wr + c.size := by
        have := (St.finished_begun h hrun).2.2
        omega
      refine h1.hold (p := p) (pc' := .freeze s.wr g) (Inv.noLock d3) (Or.inr hp) (Or.inl rfl)
        rfl rfl rfl rfl rfl ?_ (Nat.le_refl _) rfl ?_ ?_ ?_ ?_ ?_ (Or.inl ⟨rfl, ?_⟩)
      · show s.wip ≤ g
        omega
      · show s.wr ≤ g
        omega
      · intro x x1 x2
        have x1' : s.wip ≤ x := x1
        have x2' : x < g := x2
        have := h.runOver x (by omega) (by omega)
        intro e
        have e' : s.st x = .frozen := e
        rw [e'] at this
        cases this
      · intro x x1 x2
        have x1' : g ≤ x := x1
        exact h.ring x (by omega) x2
      · exact h.slots
      · intro x x1 x2
        refine Inv.filedKeep (s := ({ s with glob := max s.glob g } : St).ev (.global g)) (p := p)
          (pc' := .freeze s.wr g) ?_ ?_ ?_ ?_ ?_ ?_
          (by show ∀ pg t b, s.pc p ≠ .flDisk pg t b; rw [hp]; intro _ _ _ e; cases e)
          (h1.filed x x1 x2) <;> rfl
      · refine ⟨rfl, Nat.le_refl _, Nat.le_of_lt d2, Nat.le_max_right _ _, ?_, ?_⟩
        · show g ≤ s.wr + c.size
          omega
        · intro y y1 y2
          exact absurd (Nat.lt_of_le_of_lt y1 y2) (Nat.lt_irrefl _)
    · exact h1
  · exact h

/-! ## Buffers of the files -/

/-- The files change below the surface. -/
theorem Inv.files {file' disk' : Nat → Csn} {fd' : Nat → Bool} (h : Inv c s)
    (hf : ∀ x, Filed c s x → (∀ t b q, s.pc q = .flDisk (x / c.page) t b → t = true) →
      Filed c { s with
        file := file'
        fdirty := fd'
        disk := disk' } x) :
    Inv c { s with
      file := file'
      fdirty := fd'
      disk := disk' } := by
  refine ⟨h.startNext, h.startGlob, h.globRun, h.startWr, h.wrWip, h.begun, h.wipBegun, h.runOver,
    h.owner, h.uniq, h.ownRange, h.owned, h.ring, h.slots, ?_,
    h.lockFree, ?_, h.holder, ?_, h.resp, h.globEv, h.lins, h.hist⟩
  · intro x h1 h2
    refine hf x (h.filed x h1 h2) ?_
    intro t b q hq
    have hh := h.held q (h.holder q (by rw [hq]; rfl))
    rw [hq] at hh
    cases t with
    | true => rfl
    | false =>
      have := hh.2.2 rfl x rfl
      have h2' : x < s.wr := h2
      omega
  · intro q hq
    have hh := h.held q hq
    refine hh.frame rfl rfl (Nat.le_refl _) (fun _ hy => hy) (fun _ _ _ => Or.inl ⟨rfl, rfl⟩)
      ?_ (fun _ _ _ _ _ _ => rfl)
    intro y y1 y2 _ hy
    refine hf y hy ?_
    intro t b q' hq'
    have hl' := h.holder q' (by rw [hq']; rfl)
    rw [hq] at hl'
    cases hl'
    rw [hq'] at hh
    have := hh.1
    omega
  · intro q
    exact Ext.pcOk (s := s) (s' := { s with
      file := file'
      fdirty := fd'
      disk := disk' }) ⟨rfl, Nat.le_refl _, Nat.le_refl _, Nat.le_refl _,
      Nat.le_refl _, fun _ _ hd => hd, fun _ hd => hd, fun _ _ => rfl, fun _ hx => hx⟩ (h.pcs q)

theorem Inv.evict {pg : Nat} (h : Inv c s) (hcalm : ∀ q b, s.pc q ≠ .flDisk pg true b) :
    Inv c (step c s (.evict pg)) := by
  rw [step]
  split
  · rename_i hd
    refine Inv.files (file' := s.file) (disk' := setPage c s.disk pg s.file)
      (fd' := upd s.fdirty pg false) h ?_
    intro x hf ht
    refine ⟨hf.1, ?_⟩
    intro h1 h2
    show s.file x = setPage c s.disk pg s.file x ∨ x < s.glob
    by_cases e : x / c.page = pg
    · exact Or.inl (if_pos e).symm
    · rw [show setPage c s.disk pg s.file x = s.disk x from if_neg e]
      have h1' : upd s.fdirty pg false (x / c.page) = false := h1
      rw [upd_other e] at h1'
      exact hf.2 h1' h2
  · rename_i hd
    have hd' : s.fdirty pg = false := by simpa using hd
    refine Inv.files (file' := setPage c s.file pg s.disk) (disk' := s.disk)
      (fd' := s.fdirty) h ?_
    intro x hf ht
    by_cases e : x / c.page = pg
    · have hx : s.file x = s.disk x ∨ x < s.glob := by
        refine hf.2 (by rw [e]; exact hd') ?_
        intro q t b hq
        have := ht t b q hq
        subst this
        rw [e] at hq
        exact hcalm q b hq
      have ex : setPage c s.file pg s.disk x = s.disk x := if_pos e
      refine ⟨?_, ?_⟩
      · show setPage c s.file pg s.disk x = s.st x ∨ x < s.glob
        rw [ex]
        rcases hx with hx | hx
        · rw [← hx]
          exact hf.1
        · exact Or.inr hx
      · intro _ _
        exact Or.inl ex
    · have ex : setPage c s.file pg s.disk x = s.file x := if_neg e
      refine ⟨?_, ?_⟩
      · show setPage c s.file pg s.disk x = s.st x ∨ x < s.glob
        rw [ex]
        exact hf.1
      · intro h1 h2
        show setPage c s.file pg s.disk x = s.disk x ∨ x < s.glob
        rw [ex]
        exact hf.2 h1 h2

theorem Inv.garbage {x : Nat} {v : Csn} (h : Inv c s) : Inv c (step c s (.garbage x v)) := by
  rw [step]
  split
  · rename_i hg
    refine Inv.files (file' := upd s.file x v) (disk' := s.disk) (fd' := s.fdirty) h ?_
    intro y hf _
    by_cases e : y = x
    · subst e
      exact ⟨Or.inr hg, fun _ _ => Or.inr hg⟩
    · refine ⟨?_, ?_⟩
      · show upd s.file x v y = s.st y ∨ y < s.glob
        rw [upd_other e]
        exact hf.1
      · intro h1 h2
        show upd s.file x v y = s.disk y ∨ y < s.glob
        rw [upd_other e]
        exact hf.2 h1 h2
  · exact h

theorem page_lt {x pg n g : Nat} (hn : 0 < n) (h : x / n = pg) (hg : (pg + 1) * n ≤ g) : x < g := by
  have := Nat.lt_mul_div_succ x hn
  rw [h, Nat.mul_comm] at this
  omega

theorem page_le {x pg n : Nat} (h : x / n = pg) : pg * n ≤ x := by
  rw [← h]
  exact Nat.div_mul_le_self x n

theorem Inv.wipe {pg : Nat} (h : Inv c s) : Inv c (step c s (.wipe pg)) := by
  rw [step]
  split
  · rename_i hg
    refine Inv.files (file' := s.file) (disk' := s.disk) (fd' := upd s.fdirty pg false) h ?_
    intro y hf _
    refine ⟨hf.1, ?_⟩
    intro h1 h2
    by_cases e : y / c.page = pg
    · exact Or.inr (page_lt c.hpage e hg)
    · have h1' : upd s.fdirty pg false (y / c.page) = false := h1
      rw [upd_other e] at h1'
      exact hf.2 h1' h2
  · exact h

end Verif.OxidMap
