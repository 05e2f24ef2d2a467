import Verif.OxidMap.StepMap

/-!
# Steps that set a status
-/

set_option linter.unusedVariables false

namespace Verif.OxidMap

variable {c : Cfg} {s s' : St} {p q : Nat}

theorem Csn.okFor_frozen {v : Csn} (h : v.okFor p = true) : v ≠ .frozen := by
  intro e
  subst e
  cases h

theorem Csn.okFor_special {b : Bool} (h : (Csn.special q b).okFor p = true) : q = p := by
  have h' : (q == p) = true := h
  exact eq_of_beq h'

/-- A status that is not finished and fits the session. -/
theorem Csn.okFor_cases {v : Csn} (h : v.okFor p = true) (hf : v.finished = false) :
    ∃ b, v = .special p b := by
  cases v with
  | frozen => cases h
  | aborted => cases hf
  | committed n => cases hf
  | special q b =>
    have := Csn.okFor_special h
    subst this
    exact ⟨b, rfl⟩

/-- The status of a transaction before a change. -/
def Before (s : St) (p x : Nat) : Prop :=
  (∃ b, s.st x = .special p b) ∨ s.st x = .frozen

theorem Before.unfinished {x : Nat} (h : Before s p x) : (s.st x).finished = false := by
  rcases h with ⟨b, e⟩ | e <;> rw [e] <;> rfl

/-- A status is set in the ring. -/
theorem Inv.write {x : Nat} {v : Csn} (h : Inv c s) (hno : (s.pc p).holds = false)
    (hnr : ¬ Resp s (s.pc p)) (hset : Setting s p x v) (hb : Before s p x)
    (hx : s.wip ≤ x ∨ (s.wr ≤ x ∧ s.ring (x % c.size) ≠ .frozen))
    (hhi : x + 1 < s.wr + c.size) :
    Inv c ((({ s with ring := upd s.ring (x % c.size) v } : St).ev (.lin x v)).at p
      (.setDirty x v)) := by
  have hfin := hb.unfinished
  have hn : 0 < c.size := by have := c.hsize; omega
  have hv := Csn.okFor_frozen hset.ok
  have hlo : s.wr ≤ x := by
    have := h.wrWip
    rcases hx with hx | hx
    · omega
    · exact hx.1
  have hst1 : ((({ s with ring := upd s.ring (x % c.size) v } : St).ev (.lin x v)).at p
      (.setDirty x v)).st x = v := if_pos rfl
  have hst2 : ∀ y, y ≠ x → ((({ s with ring := upd s.ring (x % c.size) v } : St).ev
      (.lin x v)).at p (.setDirty x v)).st y = s.st y := fun y hy => if_neg (Ne.symm hy)
  have hslot : ∀ y, s.wr ≤ y → y < s.wr + c.size → y ≠ x → y % c.size ≠ x % c.size := by
    intro y h1 h2 h3 e
    exact h3 (slot_inj hn h1 h2 hlo (by omega) e)
  have hring : ∀ y, s.wr ≤ y → y < s.wr + c.size → y ≠ x →
      upd s.ring (x % c.size) v (y % c.size) = s.ring (y % c.size) :=
    fun y h1 h2 h3 => upd_other (hslot y h1 h2 h3)
  have hrange := h.ownRange p x hset.own
  generalize hs' : ((({ s with ring := upd s.ring (x % c.size) v } : St).ev (.lin x v)).at p
    (.setDirty x v)) = s' at *
  have e_ring : s'.ring = upd s.ring (x % c.size) v := by subst hs'; rfl
  have e_wr : s'.wr = s.wr := by subst hs'; rfl
  have e_wip : s'.wip = s.wip := by subst hs'; rfl
  have e_glob : s'.glob = s.glob := by subst hs'; rfl
  have e_run : s'.run = s.run := by subst hs'; rfl
  have e_next : s'.next = s.next := by subst hs'; rfl
  have e_own : s'.own = s.own := by subst hs'; rfl
  have e_lock : s'.lock = s.lock := by subst hs'; rfl
  have e_file : s'.file = s.file := by subst hs'; rfl
  have e_fd : s'.fdirty = s.fdirty := by subst hs'; rfl
  have e_disk : s'.disk = s.disk := by subst hs'; rfl
  have e_pc : s'.pc = upd s.pc p (.setDirty x v) := by subst hs'; rfl
  have e_tr : s'.tr = .lin x v :: s.tr := by subst hs'; rfl
  clear hs'
  have hfiled : ∀ y, y ≠ x → Filed c s y → Filed c s' y := by
    intro y hy hf
    exact hf.mono (hst2 y hy) (by rw [e_file]) (by rw [e_glob]; exact Nat.le_refl _)
      (fun e => ⟨by rw [← e_fd]; exact e, by rw [e_disk]⟩) (exempt_upd (not_flDisk hno) e_pc)
  have hext : ∀ q, q ≠ p → Ext s s' q := by
    intro q hq
    refine ⟨by rw [e_own], by rw [e_wip]; exact Nat.le_refl _, by rw [e_wr]; exact Nat.le_refl _,
      by rw [e_run]; exact Nat.le_refl _, by rw [e_glob]; exact Nat.le_refl _, ?_, ?_, ?_, ?_⟩
    · intro cl mid hd
      rw [e_tr]
      exact hd.cons Foreign.lin
    · intro cl hd
      rw [e_tr]
      exact hd.now Foreign.lin
    · intro y hy
      refine hst2 y ?_
      intro e
      subst e
      exact hq (h.uniq q p y hy hset.own)
    · intro y hy
      by_cases e : y = x
      · subst e
        rw [hfin] at hy
        cases hy
      · rw [hst2 y e]
        exact hy
  constructor
  case startNext => rw [e_next]; first | exact h.startNext | exact Nat.le_succ_of_le h.startNext
  case startGlob => rw [e_glob]; exact h.startGlob
  case globRun => rw [e_glob, e_run]; exact h.globRun
  case startWr => rw [e_wr]; exact h.startWr
  case wrWip => rw [e_wr, e_wip]; exact h.wrWip
  case begun =>
    intro y hy
    rw [e_next, e_wr]
    by_cases e : y = x
    · subst e
      exact ⟨hrange.1, hrange.2, hhi⟩
    · rw [hst2 y e] at hy
      exact h.begun y hy
  case wipBegun =>
    intro y h1 h2
    rw [e_wip] at h2
    by_cases e : y = x
    · subst e
      rw [hst1]
      exact hv
    · rw [hst2 y e]
      exact h.wipBegun y h1 h2
  case runOver =>
    intro y h1 h2
    rw [e_run] at h2
    have := h.runOver y h1 h2
    by_cases e : y = x
    · subst e
      rw [hfin] at this
      cases this
    · rw [hst2 y e]
      exact this
  case owner =>
    intro y q b hy
    rw [e_own]
    by_cases e : y = x
    · subst e
      rw [hst1] at hy
      have hok := hset.ok
      rw [hy] at hok
      have := Csn.okFor_special hok
      subst this
      exact hset.own
    · rw [hst2 y e] at hy
      exact h.owner y q b hy
  case uniq => rw [e_own]; exact h.uniq
  case ownRange => rw [e_own, e_next]; exact h.ownRange
  case owned =>
    intro y h1 h2
    rw [e_next] at h2
    rw [e_own]
    by_cases e : y = x
    · subst e
      exact Or.inr ⟨p, hset.own⟩
    · rw [hst2 y e]
      exact h.owned y h1 h2
  case ring =>
    intro y h1 h2
    rw [e_wip] at h1
    rw [e_wr] at h2
    rw [e_ring]
    by_cases e : y = x
    · subst e
      rw [hst1, upd_same]
    · have := h.wrWip
      rw [hst2 y e, hring y (by omega) h2 e]
      exact h.ring y h1 h2
  case slots =>
    intro y h1 h2
    rw [e_wr] at h1 h2
    rw [e_ring]
    by_cases e : y = x
    · subst e
      rw [hst1, upd_same]
      exact Or.inl rfl
    · rw [hst2 y e, hring y h1 h2 e]
      exact h.slots y h1 h2
  case filed =>
    intro y h1 h2
    rw [e_wr] at h2
    exact hfiled y (by omega) (h.filed y h1 h2)
  case lockFree => rw [e_lock, e_wip, e_wr]; exact h.lockFree
  case held =>
    rw [e_lock, e_pc]
    refine held_at ?_ ?_
    · intro hl
      have := h.held p hl
      cases hpc0 : s.pc p <;> rw [hpc0] at this hno <;> first | exact this.elim | cases hno
    · intro q hq hl
      refine (h.held q hl).frame e_wip e_wr (by rw [e_glob]; exact Nat.le_refl _) ?_ ?_ ?_ ?_
      · intro y hy
        by_cases e : y = x
        · subst e
          rw [hst1]
          exact hv
        · rw [hst2 y e]
          exact hy
      · intro y h1 h2
        by_cases e : y = x
        · subst e
          refine Or.inr ⟨?_, ?_⟩
          · rcases hx with hx | hx
            · omega
            · exact hx.2
          · rw [hst1, e_ring, upd_same]
        · refine Or.inl ⟨?_, hst2 y e⟩
          have hy : y < s.wr + c.size := by
            have := h.wipBegun y (by have := h.startWr; omega) h2
            have := (h.begun y this).2.2
            omega
          rw [e_ring, hring y h1 hy e]
      · intro y h1 h2 h3 hf
        refine hfiled y ?_ hf
        intro e
        subst e
        rcases hx with hx | hx
        · omega
        · exact hx.2 h3
      · intro pg b _ y hy _
        exact hst2 y (by omega)
  case holder =>
    rw [e_lock, e_pc]
    exact holder_at (fun e => by cases e) (fun q _ hq => h.holder q hq)
  case pcs =>
    rw [e_pc]
    refine pcs_at ?_ (fun q hq => (hext q hq).pcOk (h.pcs q))
    refine ⟨⟨by rw [e_own]; exact hset.own, hset.ok, by rw [e_tr]; exact hset.now.now Foreign.lin⟩,
      hst1, s.tr, ?_⟩
    rw [e_tr]
    exact hset.now.now Foreign.lin
  case resp =>
    intro hr
    rw [e_pc]
    rw [e_run] at hr
    by_cases e : s.run = x
    · refine ⟨p, ?_⟩
      rw [upd_same]
      show x = s'.run
      rw [e_run, e]
    · rw [hst2 _ e] at hr
      exact resp_at (h.resp hr) (fun hp => absurd hp hnr)
        (fun pc hp => Ext.resp e_run (by rw [e_wip]; exact Nat.le_refl _) hp)
  case globEv =>
    intro hg
    rw [e_glob] at hg ⊢
    rw [e_tr]
    exact List.mem_cons_of_mem _ (h.globEv hg)
  case lins =>
    intro y w hm
    by_cases e : y = x
    · subst e
      rw [hst1]
      exact hv
    · rw [hst2 y e]
      rw [e_tr, List.mem_cons] at hm
      rcases hm with hm | hm
      · cases hm
        exact absurd rfl e
      · exact h.lins y w hm
  case hist =>
    rw [e_tr]
    refine h.hist.cons (fun _ _ _ e => by cases e) (fun _ _ _ e => by cases e) ?_
    intro y w e
    cases e
    exact ⟨p, hset.now⟩

theorem Inv.goBegin {x : Nat} (h : Inv c s) (hp : s.pc p = .beginWait x) : Inv c (go c s p) := by
  have hpc := h.pcs p
  rw [hp] at hpc
  obtain ⟨hset, hst⟩ := hpc
  unfold go
  rw [hp]
  dsimp only
  split
  · rename_i hx
    refine h.write (by rw [hp]; rfl) (by rw [hp]; exact id) hset (Or.inr hst) (Or.inl ?_) hx
    have := h.ownRange p x hset.own
    by_cases hw : s.wip ≤ x
    · exact hw
    · exact absurd hst (h.wipBegun x this.1 (by omega))
  · exact h

/-- The end of `set_oxid_csn`. -/
theorem Inv.setDone {x : Nat} {v : Csn} (h : Inv c s) (hno : (s.pc p).holds = false)
    (hset : Setting s p x v) (his : IsSet s p x v)
    (hr : Resp s (s.pc p) → x = s.run) : Inv c (setDone s p x v) := by
  have hh : C19 (.ret p (.set x v) v :: s.tr) := by
    refine h.hist.cons (fun _ _ _ e => by cases e) ?_ (fun _ _ e => by cases e)
    intro p' x' v' e
    cases e
    exact his.lin
  show Inv c (if v.finished then _ else _)
  split
  · rename_i hf
    refine h.tell (fun _ _ e => by cases e) (fun q hq => Foreign.ret (Ne.symm hq)) hno rfl ?_ ?_ hh
    · refine ⟨hset.own, ?_⟩
      show (s.st x).finished = true
      rw [his.st]
      exact hf
    · intro _ h2
      exact hr h2
  · rename_i hf
    refine h.tell (fun _ _ e => by cases e) (fun q hq => Foreign.ret (Ne.symm hq)) hno rfl ?_ ?_ hh
    · intro y hy
      have hy' : s.own p = some y := hy
      rw [hset.own] at hy'
      cases hy'
      have := Csn.okFor_cases hset.ok (by simpa using hf)
      rw [← his.st] at this
      exact this
    · intro h1 h2
      have := hr h2
      rw [← this, his.st] at h1
      exact absurd h1 hf

theorem setPages {pg : Nat} {f : Nat → Bool} {x : Nat} (hp : 0 < c.page)
    (h : upd f (x / c.page) true pg = false) : pg ≠ x / c.page ∧ f pg = false := by
  by_cases e : pg = x / c.page
  · rw [e, upd_same] at h
    cases h
  · rw [upd_other e] at h
    exact ⟨e, h⟩

/-- A status that was set in the ring is written to the files as well. -/
theorem Inv.fileSame {x : Nat} {v : Csn} (h : Inv c s) (hst : s.st x = v) :
    Inv c { s with
      file := upd s.file x v
      fdirty := upd s.fdirty (x / c.page) true } := by
  have hfiled : ∀ y, Filed c s y → Filed c ({ s with
      file := upd s.file x v
      fdirty := upd s.fdirty (x / c.page) true } : St) y := by
    intro y hf
    refine ⟨?_, ?_⟩
    · show upd s.file x v y = s.st y ∨ y < s.glob
      by_cases e : y = x
      · subst e
        rw [upd_same]
        exact Or.inl hst.symm
      · rw [upd_other e]
        exact hf.1
    · intro hd hq
      obtain ⟨h1, h2⟩ := setPages c.hpage hd
      have e : y ≠ x := by
        intro e
        subst e
        exact h1 rfl
      show upd s.file x v y = s.disk y ∨ y < s.glob
      rw [upd_other e]
      exact hf.2 h2 hq
  refine ⟨h.startNext, h.startGlob, h.globRun, h.startWr, h.wrWip, h.begun, h.wipBegun, h.runOver, h.owner,
    h.uniq, h.ownRange, h.owned, h.ring, h.slots, fun y h1 h2 => hfiled y (h.filed y h1 h2),
    h.lockFree, ?_, h.holder, ?_, h.resp, h.globEv, h.lins, h.hist⟩
  · intro q hq
    exact (h.held q hq).frame rfl rfl (Nat.le_refl _) (fun _ hy => hy)
      (fun y _ _ => Or.inl ⟨rfl, rfl⟩) (fun y _ _ _ hf => hfiled y hf) (fun _ _ _ _ _ _ => rfl)
  · intro q
    exact Ext.pcOk (s := s) (s' := { s with
      file := upd s.file x v
      fdirty := upd s.fdirty (x / c.page) true }) ⟨rfl, Nat.le_refl _, Nat.le_refl _, Nat.le_refl _, Nat.le_refl _,
      fun _ _ hd => hd, fun _ hd => hd, fun _ _ => rfl, fun _ hx => hx⟩ (h.pcs q)

/-- A status that is set in the files only. -/
theorem Inv.fileNew {x : Nat} {v : Csn} (h : Inv c s) (hp : s.pc p = .setFile x v false)
    (hcalm : ∀ q b, s.pc q ≠ .flCopy (x / c.page) true b ∧ s.pc q ≠ .flRefresh (x / c.page) true b ∧
      s.pc q ≠ .flDisk (x / c.page) true b) :
    Inv c (({ s with
      file := upd s.file x v
      fdirty := upd s.fdirty (x / c.page) true
      pc := upd s.pc p (.setFile x v true) } : St).ev (.lin x v)) := by
  have hpc := h.pcs p
  rw [hp] at hpc
  obtain ⟨hset, hmay, hxr⟩ := hpc
  obtain ⟨b0, hb0⟩ := hmay.2 rfl
  have hno : (s.pc p).holds = false := by rw [hp]; rfl
  have hfin : (s.st x).finished = false := by rw [hb0]; rfl
  have hv := Csn.okFor_frozen hset.ok
  have hrange := h.ownRange p x hset.own
  have hwip := h.wrWip
  generalize hs' : (({ s with
      file := upd s.file x v
      fdirty := upd s.fdirty (x / c.page) true
      pc := upd s.pc p (.setFile x v true) } : St).ev (.lin x v)) = s'
  have hst1 : s'.st x = v := by subst hs'; exact if_pos rfl
  have hst2 : ∀ y, y ≠ x → s'.st y = s.st y := by
    subst hs'; exact fun y hy => if_neg (Ne.symm hy)
  have e_ring : s'.ring = s.ring := by subst hs'; rfl
  have e_wr : s'.wr = s.wr := by subst hs'; rfl
  have e_wip : s'.wip = s.wip := by subst hs'; rfl
  have e_glob : s'.glob = s.glob := by subst hs'; rfl
  have e_run : s'.run = s.run := by subst hs'; rfl
  have e_next : s'.next = s.next := by subst hs'; rfl
  have e_own : s'.own = s.own := by subst hs'; rfl
  have e_lock : s'.lock = s.lock := by subst hs'; rfl
  have e_file : s'.file = upd s.file x v := by subst hs'; rfl
  have e_fd : s'.fdirty = upd s.fdirty (x / c.page) true := by subst hs'; rfl
  have e_disk : s'.disk = s.disk := by subst hs'; rfl
  have e_pc : s'.pc = upd s.pc p (.setFile x v true) := by subst hs'; rfl
  have e_tr : s'.tr = .lin x v :: s.tr := by subst hs'; rfl
  clear hs'
  have hfiled : ∀ y, Filed c s y → Filed c s' y := by
    intro y hf
    refine ⟨?_, ?_⟩
    · rw [e_file, e_glob]
      by_cases e : y = x
      · subst e
        rw [upd_same, hst1]
        exact Or.inl rfl
      · rw [upd_other e, hst2 y e]
        exact hf.1
    · intro hd hq
      rw [e_fd] at hd
      obtain ⟨h1, h2⟩ := setPages c.hpage hd
      have e : y ≠ x := by
        intro e
        subst e
        exact h1 rfl
      rw [e_file, e_disk, e_glob, upd_other e]
      refine hf.2 h2 ?_
      intro q t b eq
      obtain ⟨q', t', b', e'⟩ := exempt_upd (not_flDisk hno) e_pc ⟨q, t, b, eq⟩
      exact hq q' t' b' e'
  have hext : ∀ q, q ≠ p → Ext s s' q := by
    intro q hq
    refine ⟨by rw [e_own], by rw [e_wip]; exact Nat.le_refl _, by rw [e_wr]; exact Nat.le_refl _,
      by rw [e_run]; exact Nat.le_refl _, by rw [e_glob]; exact Nat.le_refl _, ?_, ?_, ?_, ?_⟩
    · intro cl mid hd
      rw [e_tr]
      exact hd.cons Foreign.lin
    · intro cl hd
      rw [e_tr]
      exact hd.now Foreign.lin
    · intro y hy
      refine hst2 y ?_
      intro e
      subst e
      exact hq (h.uniq q p y hy hset.own)
    · intro y hy
      by_cases e : y = x
      · subst e
        rw [hfin] at hy
        cases hy
      · rw [hst2 y e]
        exact hy
  constructor
  case startNext => rw [e_next]; first | exact h.startNext | exact Nat.le_succ_of_le h.startNext
  case startGlob => rw [e_glob]; exact h.startGlob
  case globRun => rw [e_glob, e_run]; exact h.globRun
  case startWr => rw [e_wr]; exact h.startWr
  case wrWip => rw [e_wr, e_wip]; exact h.wrWip
  case begun =>
    intro y hy
    rw [e_next, e_wr]
    by_cases e : y = x
    · subst e
      have : 2 ≤ c.size := c.hsize
      exact ⟨hrange.1, hrange.2, by omega⟩
    · rw [hst2 y e] at hy
      exact h.begun y hy
  case wipBegun =>
    intro y h1 h2
    rw [e_wip] at h2
    by_cases e : y = x
    · subst e
      rw [hst1]
      exact hv
    · rw [hst2 y e]
      exact h.wipBegun y h1 h2
  case runOver =>
    intro y h1 h2
    rw [e_run] at h2
    have := h.runOver y h1 h2
    by_cases e : y = x
    · subst e
      rw [hfin] at this
      cases this
    · rw [hst2 y e]
      exact this
  case owner =>
    intro y q b hy
    rw [e_own]
    by_cases e : y = x
    · subst e
      rw [hst1] at hy
      have hok := hset.ok
      rw [hy] at hok
      have := Csn.okFor_special hok
      subst this
      exact hset.own
    · rw [hst2 y e] at hy
      exact h.owner y q b hy
  case uniq => rw [e_own]; exact h.uniq
  case ownRange => rw [e_own, e_next]; exact h.ownRange
  case owned =>
    intro y h1 h2
    rw [e_next] at h2
    rw [e_own]
    by_cases e : y = x
    · subst e
      exact Or.inr ⟨p, hset.own⟩
    · rw [hst2 y e]
      exact h.owned y h1 h2
  case ring =>
    intro y h1 h2
    rw [e_wip] at h1
    rw [e_wr] at h2
    rw [e_ring, hst2 y (by omega)]
    exact h.ring y h1 h2
  case slots =>
    intro y h1 h2
    rw [e_wr] at h1 h2
    rw [e_ring, hst2 y (by omega)]
    exact h.slots y h1 h2
  case filed =>
    intro y h1 h2
    rw [e_wr] at h2
    exact hfiled y (h.filed y h1 h2)
  case lockFree => rw [e_lock, e_wip, e_wr]; exact h.lockFree
  case held =>
    rw [e_lock, e_pc]
    refine held_at ?_ ?_
    · intro hl
      have := h.held p hl
      rw [hp] at this
      exact this.elim
    · intro q hq hl
      refine (h.held q hl).frame e_wip e_wr (by rw [e_glob]; exact Nat.le_refl _) ?_ ?_ ?_ ?_
      · intro y hy
        by_cases e : y = x
        · subst e
          rw [hst1]
          exact hv
        · rw [hst2 y e]
          exact hy
      · intro y h1 h2
        exact Or.inl ⟨by rw [e_ring], hst2 y (by omega)⟩
      · intro y h1 h2 h3 hf
        exact hfiled y hf
      · intro pg b hpg y hy hyp
        refine hst2 y ?_
        intro e
        subst e
        subst hyp
        have := hcalm q b
        rcases hpg with hpg | hpg | hpg
        · exact this.1 hpg
        · exact this.2.1 hpg
        · exact this.2.2 hpg
  case holder =>
    rw [e_lock, e_pc]
    exact holder_at (fun e => by cases e) (fun q _ hq => h.holder q hq)
  case pcs =>
    rw [e_pc]
    refine pcs_at ?_ (fun q hq => (hext q hq).pcOk (h.pcs q))
    refine ⟨⟨by rw [e_own]; exact hset.own, hset.ok, by rw [e_tr]; exact hset.now.now Foreign.lin⟩,
      ⟨fun _ => ⟨hst1, s.tr, ?_⟩, fun e => by cases e⟩, by rw [e_wr]; exact hxr⟩
    rw [e_tr]
    exact hset.now.now Foreign.lin
  case resp =>
    intro hr
    rw [e_pc]
    rw [e_run] at hr
    by_cases e : s.run = x
    · refine ⟨p, ?_⟩
      rw [upd_same]
      exact ⟨by rw [e_run, e], rfl⟩
    · rw [hst2 _ e] at hr
      refine resp_at (h.resp hr) ?_
        (fun pc hp => Ext.resp e_run (by rw [e_wip]; exact Nat.le_refl _) hp)
      intro hr'
      rw [hp] at hr'
      cases hr'.2
  case globEv =>
    intro hg
    rw [e_glob] at hg ⊢
    rw [e_tr]
    exact List.mem_cons_of_mem _ (h.globEv hg)
  case lins =>
    intro y w hm
    by_cases e : y = x
    · subst e
      rw [hst1]
      exact hv
    · rw [hst2 y e]
      rw [e_tr, List.mem_cons] at hm
      rcases hm with hm | hm
      · cases hm
        exact absurd rfl e
      · exact h.lins y w hm
  case hist =>
    rw [e_tr]
    refine h.hist.cons (fun _ _ _ e => by cases e) (fun _ _ _ e => by cases e) ?_
    intro y w e
    cases e
    exact ⟨p, hset.now⟩

theorem upd_upd {α : Type} {f : Nat → α} {i : Nat} {a b : α} : upd (upd f i a) i b = upd f i b := by
  funext j
  by_cases e : j = i
  · subst e
    rw [upd_same, upd_same]
  · rw [upd_other e, upd_other e, upd_other e]

theorem setDone_at {x : Nat} {v : Csn} {pc : Pc} :
    Verif.OxidMap.setDone { s with pc := upd s.pc p pc } p x v = Verif.OxidMap.setDone s p x v := by
  simp only [Verif.OxidMap.setDone, St.at, St.ev, upd_upd]

theorem Setting.cast {x : Nat} {v : Csn} (h : Setting s p x v) (ho : s'.own p = s.own p)
    (ht : s'.tr = s.tr) : Setting s' p x v :=
  ⟨by rw [ho]; exact h.own, h.ok, by rw [ht]; exact h.now⟩

theorem IsSet.cast {x : Nat} {v : Csn} (h : IsSet s p x v) (ht : s'.tr = s.tr) :
    IsSet s' p x v :=
  ⟨by show value s'.tr x = v; rw [ht]; exact h.st, by rw [ht]; exact h.lin⟩

theorem MaySet.cast {x : Nat} {v : Csn} {d : Bool} (h : MaySet s p x v d) (ht : s'.tr = s.tr) :
    MaySet s' p x v d :=
  ⟨fun e => (h.1 e).cast ht, fun e => by show ∃ b, value s'.tr x = _; rw [ht]; exact h.2 e⟩

/-- The steps of `set_oxid_csn`. -/
theorem Inv.goSet {pc : Pc} (h : Inv c s) (hp : s.pc p = pc)
    (hcalm : ∀ x v, s.pc p = .setFile x v false → ∀ q b, s.pc q ≠ .flCopy (x / c.page) true b ∧
      s.pc q ≠ .flRefresh (x / c.page) true b ∧ s.pc q ≠ .flDisk (x / c.page) true b) :
    Inv c (goSet c s p pc) := by
  have hpc := h.pcs p
  rw [hp] at hpc
  cases pc with
  | setOld x v =>
    obtain ⟨hset, b, hb⟩ := hpc
    refine h.goto (by rw [hp]; rfl) rfl ⟨hset.cast rfl rfl, ⟨b, hb⟩, ?_⟩ (fun _ hr => by rw [hp] at hr; exact hr.elim)
    intro hw
    refine h.ring x hw ?_
    have := (h.begun x (by rw [hb]; intro e; cases e)).2.2
    show x < s.wr + c.size
    omega
  | setWip x v old =>
    obtain ⟨hset, hb, ho⟩ := hpc
    show Inv c (if s.wip ≤ x then s.at p (.setCas x v old) else s.at p (.setWritten x v false))
    split
    · rename_i hw
      exact h.goto (by rw [hp]; rfl) rfl ⟨hset.cast rfl rfl, hb, ho hw⟩ (fun _ hr => by rw [hp] at hr; exact hr.elim)
    · rename_i hw
      exact h.goto (by rw [hp]; rfl) rfl ⟨hset.cast rfl rfl, ⟨fun e => (by cases e), fun _ => hb⟩, Nat.lt_of_not_le hw⟩
        (fun _ hr => by rw [hp] at hr; exact hr.elim)
  | setCas x v old =>
    obtain ⟨hset, ⟨b, hb⟩, ho⟩ := hpc
    have hn : 0 < c.size := by have := c.hsize; omega
    have hlt := (h.begun x (by rw [hb]; intro e; cases e)).2.2
    show Inv c (if s.ring (x % c.size) = old then _ else _)
    split
    · rename_i hw
      obtain ⟨y, y1, y2, y3⟩ := slot_ex (w := s.wr) (Nat.mod_lt x hn)
      have hy := h.slots y y1 y2
      rw [y3, hw, ho, hb] at hy
      rcases hy with hy | hy
      · have hyo := h.owner y p b hy.symm
        rw [hset.own] at hyo
        cases hyo
        refine h.write (by rw [hp]; rfl) (by rw [hp]; exact id) hset (Or.inl ⟨b, hb⟩)
          (Or.inr ⟨y1, ?_⟩) hlt
        rw [hw, ho, hb]
        intro e
        cases e
      · cases hy
    · rename_i hw
      refine h.goto (by rw [hp]; rfl) rfl ⟨hset.cast rfl rfl, ⟨fun e => (by cases e), fun _ => ⟨b, hb⟩⟩, ?_⟩
        (fun _ hr => by rw [hp] at hr; exact hr.elim)
      show x < s.wip
      rcases Nat.lt_or_ge x s.wip with hl | hl
      · exact hl
      · exact absurd ((h.ring x hl (by omega)).trans ho.symm) hw
  | setDirty x v =>
    obtain ⟨hset, his⟩ := hpc
    exact Inv.move (own' := s.own) (es := []) (bits' := upd s.bits (pageIndex c x) true)
      (s := s) (spin' := s.spin) h (Or.inl rfl) (fun e he => absurd he List.not_mem_nil) (by rw [hp]; rfl) rfl
      ⟨hset.cast rfl rfl, his.cast rfl⟩ (fun _ hr => by rw [hp] at hr; exact hr) h.hist
  | setRecheck x v =>
    obtain ⟨hset, his⟩ := hpc
    show Inv c (if s.wip ≤ x then Verif.OxidMap.setDone s p x v else s.at p (.setWritten x v true))
    split
    · exact h.setDone (by rw [hp]; rfl) hset his (fun hr => by rw [hp] at hr; exact hr)
    · rename_i hw
      exact h.goto (by rw [hp]; rfl) rfl
        ⟨hset.cast rfl rfl, ⟨fun _ => his.cast rfl, fun e => (by cases e)⟩, Nat.lt_of_not_le hw⟩
        (fun _ hr => by rw [hp] at hr; exact ⟨hr, rfl⟩)
  | setWritten x v d =>
    obtain ⟨hset, hmay, hw⟩ := hpc
    show Inv c (if s.wr ≤ x then s.at p (.setLock x v d) else s.at p (.setFile x v d))
    split
    · exact h.goto (by rw [hp]; rfl) rfl ⟨hset.cast rfl rfl, hmay.cast rfl, hw⟩ (fun _ hr => by rw [hp] at hr; exact hr)
    · rename_i hr
      exact h.goto (by rw [hp]; rfl) rfl ⟨hset.cast rfl rfl, hmay.cast rfl, Nat.lt_of_not_le hr⟩
        (fun _ hr => by rw [hp] at hr; exact hr)
  | setLock x v d =>
    obtain ⟨hset, hmay, hw⟩ := hpc
    show Inv c (if s.lock = none then s.at p (.setFile x v d) else s)
    split
    · rename_i hl
      have := h.lockFree hl
      refine h.goto (by rw [hp]; rfl) rfl ⟨hset.cast rfl rfl, hmay.cast rfl, ?_⟩ (fun _ hr => by rw [hp] at hr; exact hr)
      show x < s.wr
      omega
    · exact h
  | setFile x v d =>
    obtain ⟨hset, hmay, hw⟩ := hpc
    cases d with
    | true =>
      have his := hmay.1 rfl
      refine (h.fileSame his.st).setDone (p := p) ?_ (hset.cast rfl rfl) (his.cast rfl) ?_
      · show (s.pc p).holds = false
        rw [hp]
        rfl
      · intro hr
        have hr' : Resp s (s.pc p) := Ext.resp rfl (Nat.le_refl _) hr
        rw [hp] at hr'
        exact hr'.1
    | false =>
      have h1 := h.fileNew hp (fun q b => hcalm x v hp q b)
      have hpc1 := h1.pcs p
      have e1 : ((({ s with
        file := upd s.file x v
        fdirty := upd s.fdirty (x / c.page) true
        pc := upd s.pc p (.setFile x v true) } : St).ev (.lin x v))).pc p = .setFile x v true :=
        upd_same
      rw [e1] at hpc1
      obtain ⟨hset1, hmay1, _⟩ := hpc1
      have h2 := h1.setDone (p := p) (by rw [e1]; rfl) hset1 (hmay1.1 rfl)
        (fun hr => by rw [e1] at hr; exact hr.1)
      have e2 := setDone_at (p := p) (x := x) (v := v) (pc := .setFile x v true)
        (s := ({ s with
          file := upd s.file x v
          fdirty := upd s.fdirty (x / c.page) true } : St).ev (.lin x v))
      exact (congrArg (Inv c) e2).mp h2
  | _ => exact h

/-! ## The rest of the steps without the lock -/

theorem Inv.begin (h : Inv c s) (hp : s.pc p = .idle) (ho : s.own p = none) :
    Inv c ((({ s with
      next := s.next + 1
      own := upd s.own p (some s.next) } : St).ev
        (.call p (.set s.next (.special p false)))).at p (.beginWait s.next)) := by
  have hnof : s.st s.next = .frozen := by
    rcases Classical.em (s.st s.next = .frozen) with e | e
    · exact e
    · have := (h.begun _ e).2.1
      omega
  have hno : (s.pc p).holds = false := by rw [hp]; rfl
  generalize hs' : ((({ s with
      next := s.next + 1
      own := upd s.own p (some s.next) } : St).ev
        (.call p (.set s.next (.special p false)))).at p (.beginWait s.next)) = s'
  have hst : ∀ y, s'.st y = s.st y := by subst hs'; exact fun y => rfl
  have e_ring : s'.ring = s.ring := by subst hs'; rfl
  have e_wr : s'.wr = s.wr := by subst hs'; rfl
  have e_wip : s'.wip = s.wip := by subst hs'; rfl
  have e_glob : s'.glob = s.glob := by subst hs'; rfl
  have e_run : s'.run = s.run := by subst hs'; rfl
  have e_next : s'.next = s.next + 1 := by subst hs'; rfl
  have e_own : s'.own = upd s.own p (some s.next) := by subst hs'; rfl
  have e_lock : s'.lock = s.lock := by subst hs'; rfl
  have e_file : s'.file = s.file := by subst hs'; rfl
  have e_fd : s'.fdirty = s.fdirty := by subst hs'; rfl
  have e_disk : s'.disk = s.disk := by subst hs'; rfl
  have e_pc : s'.pc = upd s.pc p (.beginWait s.next) := by subst hs'; rfl
  have e_tr : s'.tr = .call p (.set s.next (.special p false)) :: s.tr := by subst hs'; rfl
  clear hs'
  have hownS : ∀ q y, s'.own q = some y → (q = p ∧ y = s.next) ∨ (q ≠ p ∧ s.own q = some y) := by
    intro q y hy
    rw [e_own] at hy
    by_cases e : q = p
    · subst e
      rw [upd_same] at hy
      cases hy
      exact Or.inl ⟨rfl, rfl⟩
    · rw [upd_other e] at hy
      exact Or.inr ⟨e, hy⟩
  have hfiled : ∀ y, Filed c s y → Filed c s' y := by
    intro y hf
    exact hf.mono (hst y) (by rw [e_file]) (by rw [e_glob]; exact Nat.le_refl _)
      (fun e => ⟨by rw [← e_fd]; exact e, by rw [e_disk]⟩) (exempt_upd (not_flDisk hno) e_pc)
  have hext : ∀ q, q ≠ p → Ext s s' q := by
    intro q hq
    refine ⟨by rw [e_own, upd_other hq], by rw [e_wip]; exact Nat.le_refl _,
      by rw [e_wr]; exact Nat.le_refl _, by rw [e_run]; exact Nat.le_refl _,
      by rw [e_glob]; exact Nat.le_refl _, ?_, ?_, fun y _ => hst y, fun y hy => by rw [hst]; exact hy⟩
    · intro cl mid hd
      rw [e_tr]
      exact hd.cons (Foreign.call (Ne.symm hq))
    · intro cl hd
      rw [e_tr]
      exact hd.now (Foreign.call (Ne.symm hq))
  constructor
  case startNext => rw [e_next]; first | exact h.startNext | exact Nat.le_succ_of_le h.startNext
  case startGlob => rw [e_glob]; exact h.startGlob
  case globRun => rw [e_glob, e_run]; exact h.globRun
  case startWr => rw [e_wr]; exact h.startWr
  case wrWip => rw [e_wr, e_wip]; exact h.wrWip
  case begun =>
    intro y hy
    rw [hst] at hy
    rw [e_next, e_wr]
    have := h.begun y hy
    exact ⟨this.1, by omega, this.2.2⟩
  case wipBegun =>
    intro y h1 h2
    rw [e_wip] at h2
    rw [hst]
    exact h.wipBegun y h1 h2
  case runOver =>
    intro y h1 h2
    rw [e_run] at h2
    rw [hst]
    exact h.runOver y h1 h2
  case owner =>
    intro y q b hy
    rw [hst] at hy
    have := h.owner y q b hy
    have hq : q ≠ p := by
      intro e
      subst e
      rw [ho] at this
      cases this
    rw [e_own, upd_other hq]
    exact this
  case uniq =>
    intro a b y ha hb
    rcases hownS a y ha with ⟨a1, a2⟩ | ⟨a1, a2⟩ <;> rcases hownS b y hb with ⟨b1, b2⟩ | ⟨b1, b2⟩
    · rw [a1, b1]
    · have := (h.ownRange b y b2).2
      omega
    · have := (h.ownRange a y a2).2
      omega
    · exact h.uniq a b y a2 b2
  case ownRange =>
    intro a y ha
    rw [e_next]
    rcases hownS a y ha with ⟨a1, a2⟩ | ⟨a1, a2⟩
    · subst a2
      exact ⟨h.startNext, by omega⟩
    · have := h.ownRange a y a2
      omega
  case owned =>
    intro y h1 h2
    rw [e_next] at h2
    rw [hst, e_own]
    by_cases e : y = s.next
    · exact Or.inr ⟨p, by rw [upd_same, e]⟩
    · rcases h.owned y h1 (by omega) with h3 | ⟨a, ha⟩
      · exact Or.inl h3
      · refine Or.inr ⟨a, ?_⟩
        have hq : a ≠ p := by
          intro e
          subst e
          rw [ho] at ha
          cases ha
        rw [upd_other hq]
        exact ha
  case ring =>
    intro y h1 h2
    rw [e_wip] at h1
    rw [e_wr] at h2
    rw [e_ring, hst]
    exact h.ring y h1 h2
  case slots =>
    intro y h1 h2
    rw [e_wr] at h1 h2
    rw [e_ring, hst]
    exact h.slots y h1 h2
  case filed =>
    intro y h1 h2
    rw [e_wr] at h2
    exact hfiled y (h.filed y h1 h2)
  case lockFree => rw [e_lock, e_wip, e_wr]; exact h.lockFree
  case held =>
    rw [e_lock, e_pc]
    refine held_at ?_ ?_
    · intro hl
      have := h.held p hl
      rw [hp] at this
      exact this.elim
    · intro q hq hl
      exact (h.held q hl).frame e_wip e_wr (by rw [e_glob]; exact Nat.le_refl _)
        (fun y hy => by rw [hst]; exact hy) (fun y _ _ => Or.inl ⟨by rw [e_ring], hst y⟩)
        (fun y _ _ _ hf => hfiled y hf) (fun _ _ _ y _ _ => hst y)
  case holder =>
    rw [e_lock, e_pc]
    exact holder_at (fun e => by cases e) (fun q _ hq => h.holder q hq)
  case pcs =>
    rw [e_pc]
    refine pcs_at ?_ (fun q hq => (hext q hq).pcOk (h.pcs q))
    refine ⟨⟨by rw [e_own, upd_same], ?_, by rw [e_tr]; exact During.start⟩, by rw [hst]; exact hnof⟩
    exact beq_self_eq_true p
  case resp =>
    intro hr
    rw [e_run, hst] at hr
    rw [e_pc]
    refine resp_at (h.resp hr) ?_
        (fun pc hp => Ext.resp e_run (by rw [e_wip]; exact Nat.le_refl _) hp)
    intro hr'
    rw [hp] at hr'
    exact hr'.elim
  case globEv =>
    intro hg
    rw [e_glob] at hg ⊢
    rw [e_tr]
    exact List.mem_cons_of_mem _ (h.globEv hg)
  case lins =>
    intro y w hm
    rw [hst]
    rw [e_tr, List.mem_cons] at hm
    rcases hm with hm | hm
    · cases hm
    · exact h.lins y w hm
  case hist =>
    rw [e_tr]
    exact h.hist.cons (fun _ _ _ e => by cases e) (fun _ _ _ e => by cases e)
      (fun _ _ e => by cases e)

/-- A step of `advance_run_xmin`. -/
theorem Inv.goRun (h : Inv c s) (hp : (∃ x, s.pc p = .runRead x) ∨ ∃ r, s.pc p = .runCas r) :
    Inv c (go c s p) := by
  have hpc := h.pcs p
  rcases hp with ⟨x, hp⟩ | ⟨r, hp⟩
  · rw [hp] at hpc
    obtain ⟨ho, hf⟩ := hpc
    obtain ⟨b1, b2, b3⟩ := St.finished_begun h hf
    unfold go
    rw [hp]
    dsimp only
    split
    · rename_i e
      exact h.goto (by rw [hp]; rfl) rfl ⟨⟨x, ho, hf⟩, b1, Nat.le_of_eq e.symm, hf⟩
        (fun _ _ => e.symm)
    · rename_i e
      refine h.leave (by rw [hp]; rfl) ⟨x, ho, hf⟩ ?_
      intro _ hr
      rw [hp] at hr
      exact e (Eq.symm hr)
  · rw [hp] at hpc
    obtain ⟨hend, h1, h2, hf⟩ := hpc
    unfold go
    rw [hp]
    dsimp only
    split
    · rename_i e
      subst e
      obtain ⟨b1, b2, b3⟩ := St.finished_begun h hf
      have hno : (s.pc p).holds = false := by rw [hp]; rfl
      have hfiled : ∀ y, Filed c s y → Filed c (({ s with run := s.run + 1 } : St).at p
          (.map true (s.run + 1) .ring)) y := fun y hf =>
        hf.mono rfl rfl (Nat.le_refl _) (fun e => ⟨e, rfl⟩) (exempt_upd (not_flDisk hno) rfl)
      refine ⟨h.startNext, h.startGlob, Nat.le_succ_of_le h.globRun, h.startWr, h.wrWip, h.begun, h.wipBegun, ?_,
        h.owner, h.uniq, h.ownRange, h.owned, h.ring, h.slots,
        fun y h1 h2 => hfiled y (h.filed y h1 h2), h.lockFree, ?_, ?_, ?_, ?_, h.globEv, h.lins,
        h.hist⟩
      · intro y y1 y2
        have y2' : y < s.run + 1 := y2
        by_cases e : y = s.run
        · subst e
          exact hf
        · exact h.runOver y y1 (by omega)
      · refine held_at ?_ ?_
        · intro hl
          have := h.held p hl
          rw [hp] at this
          exact this.elim
        · intro q hq hl
          exact (h.held q hl).frame rfl rfl (Nat.le_refl _) (fun y hy => hy)
            (fun y _ _ => Or.inl ⟨rfl, rfl⟩) (fun y _ _ _ hf => hfiled y hf) (fun _ _ _ y _ _ => rfl)
      · exact holder_at (fun e => by cases e) (fun q _ hq => h.holder q hq)
      · refine pcs_at ?_ ?_
        · exact ⟨hend, Nat.le_succ_of_le h1, Nat.le_refl _, b3, trivial⟩
        · intro q hq
          exact Ext.pcOk (s := s) (s' := ({ s with run := s.run + 1 } : St).at p
            (.map true (s.run + 1) .ring)) ⟨rfl, Nat.le_refl _, Nat.le_refl _, Nat.le_succ _, Nat.le_refl _,
            fun _ _ hd => hd, fun _ hd => hd, fun _ _ => rfl, fun _ hx => hx⟩ (h.pcs q)
      · intro _
        exact ⟨p, by show Resp _ (upd _ _ _ _); rw [upd_same]; rfl⟩
    · rename_i e
      refine h.leave (by rw [hp]; rfl) hend ?_
      intro _ hr
      rw [hp] at hr
      exact e (Eq.symm hr)

end Verif.OxidMap
