import Verif.OxidMap.StepHold

/-!
# Steps of `write_xidsmap`, of freezing, and of the checkpointer
-/

set_option linter.unusedVariables false

namespace Verif.OxidMap

variable {c : Cfg} {s s' : St} {p q : Nat}

/-- A step of the holder that does not touch the files or the limits. -/
theorem Inv.keep {pc' : Pc} (h : Inv c s) (hl : s.lock = some p)
    (hpc : (s.pc p).holds = true) (hfl : ∀ pg t b, s.pc p ≠ .flDisk pg t b)
    (hpc' : pc'.holds = true ∨ pc' = .idle)
    (e_tr : s'.tr = s.tr) (e_own : s'.own = s.own) (e_run : s'.run = s.run)
    (e_next : s'.next = s.next) (e_glob : s'.glob = s.glob) (e_wip : s'.wip = s.wip)
    (e_wr : s'.wr = s.wr) (e_ring : s'.ring = s.ring) (e_file : s'.file = s.file)
    (e_fd : s'.fdirty = s.fdirty) (e_disk : s'.disk = s.disk) (e_pc : s'.pc = upd s.pc p pc')
    (hold : (s'.lock = some p ∧ HoldOk c s' pc') ∨
      (s'.lock = none ∧ s'.wip = s'.wr ∧ pc' = .idle)) : Inv c s' := by
  refine h.hold (Inv.myLock hl) (Or.inl hpc) hpc' e_tr e_own e_run e_next e_glob
    (by rw [e_wip]; exact Nat.le_refl _) (by rw [e_wr]; exact Nat.le_refl _) e_pc
    (by rw [e_wr, e_wip]; exact h.wrWip) ?_ (by rw [e_wip, e_wr, e_ring]; exact h.ring)
    (by rw [e_wr, e_ring]; exact h.slots) ?_ hold
  · intro x h1 h2
    rw [e_wip] at h2
    omega
  · intro x h1 h2
    rw [e_wr] at h2
    exact Inv.filedKeep e_tr e_file e_fd e_disk e_glob e_pc hfl (h.filed x h1 h2)

theorem Draining.keep {ws xmax cur : Nat} {buf : Nat → Csn} (d : Draining c s ws xmax cur buf)
    (e_tr : s'.tr = s.tr) (e_wip : s'.wip = s.wip) (e_wr : s'.wr = s.wr)
    (e_ring : s'.ring = s.ring) (hf : ∀ x, Filed c s x → Filed c s' x) :
    Draining c s' ws xmax cur buf := by
  have hst : ∀ x, s'.st x = s.st x := by
    intro x
    show value s'.tr x = value s.tr x
    rw [e_tr]
  refine ⟨by rw [e_wip]; exact d.top, by rw [e_wr]; exact d.wsLo, d.wsCur, d.curHi,
    by rw [e_wr]; exact d.hi, by rw [e_wr, e_ring]; exact d.empty, ?_, ?_, ?_⟩
  · intro y h1 h2
    rw [e_ring, hst]
    exact d.ring y h1 h2
  · intro y h1 h2
    rw [hst]
    exact d.buf y h1 h2
  · intro y h1 h2
    rw [e_wr] at h1
    exact hf y (d.filed y h1 h2)

/-- Above the old limit the slots are as new. -/
theorem Inv.wrap (h : Inv c s) {w : Nat} (hw : s.wip = w)
    (hempty : ∀ y, s.wr ≤ y → y < w → s.ring (y % c.size) = .frozen) (hhi : w ≤ s.wr + c.size)
    {x : Nat} (h1 : w ≤ x) (h2 : x < w + c.size) : s.ring (x % c.size) = s.st x := by
  rcases Nat.lt_or_ge x (s.wr + c.size) with h3 | h3
  · exact h.ring x (by omega) h3
  · have e : x % c.size = (x - c.size) % c.size := by
      have e1 : x = x - c.size + c.size := by omega
      rw [e1, Nat.add_sub_cancel, Nat.add_mod_right]
    have h4 := hempty (x - c.size) (by omega) (by omega)
    rw [e, h4]
    cases h5 : s.st x with
    | frozen => rfl
    | _ =>
      have := (h.begun x (by rw [h5]; intro e; cases e)).2.2
      omega

theorem Inv.goScanStart {t : Nat} (h : Inv c s) (hp : s.pc p = .scanStart t) :
    Inv c (goDrain c s p (.scanStart t)) := by
  have hl := h.holder p (by rw [hp]; rfl)
  have hh := h.held p hl
  rw [hp] at hh
  rw [goDrain]
  split
  · refine h.keep (pc' := .scan s.wr _) hl (by rw [hp]; rfl) (by rw [hp]; intro _ _ _ e; cases e)
      (Or.inl rfl) rfl rfl rfl rfl rfl rfl rfl rfl rfl rfl rfl rfl (Or.inl ⟨hl, ?_⟩)
    refine ⟨hh, Nat.le_refl _, Nat.le_add_right _ _, ?_⟩
    intro y y1 y2
    exact absurd (Nat.lt_of_le_of_lt y1 y2) (Nat.lt_irrefl _)
  · exact h

theorem Inv.goScan {cur xmax : Nat} (h : Inv c s) (hp : s.pc p = .scan cur xmax) :
    Inv c (goDrain c s p (.scan cur xmax)) := by
  have hl := h.holder p (by rw [hp]; rfl)
  have hh := h.held p hl
  rw [hp] at hh
  obtain ⟨h1, h2, h3, h4⟩ := hh
  have hsz := c.hsize
  have hsw := h.startWr
  rw [goDrain]
  split
  · rename_i hc
    obtain ⟨_, hc⟩ := hc
    have hlt : cur < s.wr + c.size := by
      rcases Nat.lt_or_ge cur (s.wr + c.size) with hlt | hge
      · exact hlt
      · have := (h.begun (cur - 1) (h4 (cur - 1) (by omega) (by omega))).2.2
        omega
    refine h.keep (s' := s.at p (.scan (cur + 1) xmax)) (pc' := .scan (cur + 1) xmax) hl
      (by rw [hp]; rfl) (by rw [hp]; intro _ _ _ e; cases e)
      (Or.inl rfl) rfl rfl rfl rfl rfl rfl rfl rfl rfl rfl rfl rfl (Or.inl ⟨hl, ?_⟩)
    refine ⟨h1, Nat.le_succ_of_le h2, hlt, ?_⟩
    intro y y1 y2
    have y1' : s.wr ≤ y := y1
    by_cases e : y = cur
    · subst e
      rw [h.ring y (by omega) hlt] at hc
      exact hc
    · exact h4 y y1 (by omega)
  · split
    · exact h.keep (pc' := .idle) hl (by rw [hp]; rfl) (by rw [hp]; intro _ _ _ e; cases e)
        (Or.inr rfl) rfl rfl rfl rfl rfl rfl rfl rfl rfl rfl rfl rfl (Or.inr ⟨rfl, h1, rfl⟩)
    · rename_i hne
      refine h.hold (pc' := .drain s.wr cur s.wr (fun _ => .frozen)) (Inv.myLock hl)
        (Or.inl (by rw [hp]; rfl)) (Or.inl rfl)
        rfl rfl rfl rfl rfl ?_ (Nat.le_refl _) rfl ?_ ?_ ?_ ?_ ?_ (Or.inl ⟨hl, ?_⟩)
      · show s.wip ≤ cur
        omega
      · exact h2
      · intro x x1 x2
        have x2' : x < cur := x2
        exact h4 x (by omega) x2'
      · intro x x1 x2
        have x1' : cur ≤ x := x1
        exact h.ring x (by omega) x2
      · exact h.slots
      · intro x x1 x2
        refine Inv.filedKeep (s := s) (p := p) (pc' := .drain s.wr cur s.wr (fun _ => .frozen))
          ?_ ?_ ?_ ?_ ?_ ?_ (by rw [hp]; intro _ _ _ e; cases e) (h.filed x x1 x2) <;> rfl
      · refine ⟨⟨rfl, Nat.le_refl _, Nat.le_refl _, h2, h3, ?_, ?_, ?_, ?_⟩, ?_, ?_⟩
        · intro y y1 y2
          exact absurd (Nat.lt_of_le_of_lt y1 y2) (Nat.lt_irrefl _)
        · intro y y1 y2
          exact h.ring y (by omega) (Nat.lt_of_lt_of_le y2 h3)
        · intro y y1 y2
          exact absurd (Nat.lt_of_le_of_lt y1 y2) (Nat.lt_irrefl _)
        · intro y y1 y2
          exact absurd (Nat.lt_of_le_of_lt y1 y2) (Nat.lt_irrefl _)
        · omega
        · have := Nat.lt_mul_div_succ s.wr c.hpage
          rw [Nat.mul_comm] at this
          omega

/-- A slot below the limit is emptied. -/
theorem Inv.emptied (h : Inv c s) {cur : Nat} (h1 : s.wr ≤ cur) (h2 : cur < s.wip)
    (h3 : s.wip ≤ s.wr + c.size) :
    (∀ x, s.wip ≤ x → x < s.wr + c.size →
      upd s.ring (cur % c.size) .frozen (x % c.size) = s.st x) ∧
    (∀ x, s.wr ≤ x → x < s.wr + c.size → upd s.ring (cur % c.size) .frozen (x % c.size) = s.st x ∨
      upd s.ring (cur % c.size) .frozen (x % c.size) = .frozen) ∧
    (∀ x, s.wr ≤ x → x < s.wr + c.size → x ≠ cur →
      upd s.ring (cur % c.size) .frozen (x % c.size) = s.ring (x % c.size)) := by
  have hn : 0 < c.size := by have := c.hsize; omega
  have hne : ∀ x, s.wr ≤ x → x < s.wr + c.size → x ≠ cur →
      upd s.ring (cur % c.size) .frozen (x % c.size) = s.ring (x % c.size) := by
    intro x x1 x2 x3
    refine upd_other ?_
    intro e
    exact x3 (slot_inj hn x1 x2 h1 (by omega) e)
  refine ⟨?_, ?_, hne⟩
  · intro x x1 x2
    rw [hne x (by omega) x2 (by omega)]
    exact h.ring x x1 x2
  · intro x x1 x2
    by_cases e : x = cur
    · subst e
      exact Or.inr upd_same
    · rw [hne x x1 x2 e]
      exact h.slots x x1 x2

theorem Inv.goDrainStep {ws xmax cur : Nat} {buf : Nat → Csn} (h : Inv c s)
    (hp : s.pc p = .drain ws xmax cur buf) : Inv c (goDrain c s p (.drain ws xmax cur buf)) := by
  have hl := h.holder p (by rw [hp]; rfl)
  have hh := h.held p hl
  rw [hp] at hh
  obtain ⟨d, h1, h2⟩ := hh
  have hfl : ∀ pg t b, s.pc p ≠ .flDisk pg t b := by rw [hp]; intro _ _ _ e; cases e
  have d1 := d.top
  have d2 := d.wsLo
  have d3 := d.wsCur
  have d4 := d.curHi
  have d5 := d.hi
  rw [goDrain]
  dsimp only
  split
  · rename_i hc
    have hc1 : cur < xmax := Nat.lt_of_lt_of_le hc (Nat.min_le_right _ _)
    have hc2 : cur < (ws / c.page + 1) * c.page := Nat.lt_of_lt_of_le hc (Nat.min_le_left _ _)
    obtain ⟨e1, e2, e3⟩ := h.emptied (cur := cur) (by omega) (by omega) (by omega)
    have hfiled : ∀ x, Filed c s x → Filed c (({ s with ring := upd s.ring (cur % c.size) .frozen } : St).at
        p (.drain ws xmax (cur + 1) (upd buf cur (s.ring (cur % c.size))))) x := by
      intro x hf
      refine Inv.filedKeep (s := s) (p := p)
        (pc' := .drain ws xmax (cur + 1) (upd buf cur (s.ring (cur % c.size)))) ?_ ?_ ?_ ?_ ?_ ?_
        hfl hf <;> rfl
    refine h.hold (pc' := .drain ws xmax (cur + 1) (upd buf cur (s.ring (cur % c.size))))
      (Inv.myLock hl) (Or.inl (by rw [hp]; rfl)) (Or.inl rfl) rfl rfl rfl rfl rfl (Nat.le_refl _)
      (Nat.le_refl _) rfl h.wrWip ?_ e1 e2 ?_ (Or.inl ⟨hl, ?_⟩)
    · intro x x1 x2
      exact absurd (Nat.lt_of_le_of_lt x1 x2) (Nat.lt_irrefl _)
    · intro x x1 x2
      exact hfiled x (h.filed x x1 x2)
    · refine ⟨⟨d1, d2, Nat.le_succ_of_le d3, hc1, d5, ?_, ?_, ?_, ?_⟩, h1, hc2⟩
      · intro y y1 y2
        show upd s.ring (cur % c.size) .frozen (y % c.size) = .frozen
        by_cases e : y = cur
        · rw [e, upd_same]
        · have y1' : s.wr ≤ y := y1
          rw [e3 y y1 (by omega) e]
          exact d.empty y y1 (by omega)
      · intro y y1 y2
        show upd s.ring (cur % c.size) .frozen (y % c.size) = s.st y
        rw [e3 y (by omega) (by omega) (by omega)]
        exact d.ring y (by omega) y2
      · intro y y1 y2
        show upd buf cur (s.ring (cur % c.size)) y = s.st y
        by_cases e : y = cur
        · rw [e, upd_same]
          exact d.ring cur (Nat.le_refl _) hc1
        · rw [upd_other e]
          exact d.buf y y1 (by omega)
      · intro y y1 y2
        exact hfiled y (d.filed y y1 y2)
  · rename_i hc
    have hcur : cur = min ((ws / c.page + 1) * c.page) xmax := by
      have : cur ≤ min ((ws / c.page + 1) * c.page) xmax := Nat.le_min.2 ⟨h2, d4⟩
      omega
    refine h.keep (pc' := .drainWrite ws (min ((ws / c.page + 1) * c.page) xmax) xmax buf
      (s.bits (pageIndex c ws))) hl (by rw [hp]; rfl) hfl
      (Or.inl rfl) rfl rfl rfl rfl rfl rfl rfl rfl rfl rfl rfl rfl (Or.inl ⟨hl, ?_⟩)
    refine ⟨?_, h1, rfl⟩
    rw [← hcur]
    refine d.keep ?_ ?_ ?_ ?_ ?_ <;> try rfl
    intro x hf
    refine Inv.filedKeep (s := s) (p := p)
      (pc' := .drainWrite ws cur xmax buf (s.bits (pageIndex c ws))) ?_ ?_ ?_ ?_ ?_ ?_ hfl hf <;> rfl

theorem page_same {n ws y e : Nat} (hn : 0 < n) (h1 : ws ≤ y) (h2 : y < e)
    (h3 : e ≤ (ws / n + 1) * n) : y / n = ws / n := by
  have e1 : ws / n ≤ y / n := Nat.div_le_div_right h1
  have e2 : y / n < ws / n + 1 := Nat.div_lt_of_lt_mul (by rw [Nat.mul_comm]; omega)
  omega

theorem Inv.goDrainWrite {ws we xmax : Nat} {buf : Nat → Csn} {dirty : Bool} (h : Inv c s)
    (hp : s.pc p = .drainWrite ws we xmax buf dirty)
    (hcalm : dirty = false → ∀ x, c.start ≤ x → x < we → x / c.page = ws / c.page →
      setRange s.file ws we buf x = s.disk x ∨ x < s.glob) :
    Inv c (goDrain c s p (.drainWrite ws we xmax buf dirty)) := by
  have hl := h.holder p (by rw [hp]; rfl)
  have hh := h.held p hl
  rw [hp] at hh
  obtain ⟨d, h1, h2⟩ := hh
  have hfl : ∀ pg t b, s.pc p ≠ .flDisk pg t b := by rw [hp]; intro _ _ _ e; cases e
  have hsw := h.startWr
  have d1 := d.top
  have d2 := d.wsLo
  have d3 := d.wsCur
  have d4 := d.curHi
  have d5 := d.hi
  have hwe : we ≤ (ws / c.page + 1) * c.page := by rw [h2]; exact Nat.min_le_left _ _
  have hlt := Nat.lt_mul_div_succ ws c.hpage
  rw [Nat.mul_comm] at hlt
  have hwe2 : ws < we := by
    rw [h2]
    exact Nat.lt_min.2 ⟨hlt, h1⟩
  -- the files after the write
  have hfiled : ∀ (s' : St) (pc' : Pc), s'.tr = s.tr → s'.glob = s.glob → s'.disk = s.disk →
      s'.file = setRange s.file ws we buf → s'.fdirty = upd s.fdirty (ws / c.page) dirty →
      s'.pc = upd s.pc p pc' → ∀ x, c.start ≤ x → x < we → (Filed c s x ∨ (ws ≤ x ∧ x < we)) → Filed c s' x := by
    intro s' pc' e_tr e_glob e_disk e_file e_fd e_pc x hx1 hx2 hx
    have hst : s'.st x = s.st x := by
      show value s'.tr x = value s.tr x
      rw [e_tr]
    by_cases e : ws ≤ x ∧ x < we
    · refine ⟨Or.inl ?_, ?_⟩
      · rw [e_file, hst, show setRange s.file ws we buf x = buf x from if_pos e]
        exact d.buf x e.1 e.2
      · intro hd _
        have hpg := page_same c.hpage e.1 e.2 hwe
        rw [e_fd, hpg, upd_same] at hd
        rw [e_file, e_disk, e_glob]
        exact hcalm hd x hx1 hx2 hpg
    · have hf := hx.resolve_right e
      have efile : setRange s.file ws we buf x = s.file x := if_neg e
      refine ⟨by rw [e_file, efile, hst, e_glob]; exact hf.1, ?_⟩
      intro hd hq
      rw [e_fd] at hd
      rw [e_file, e_disk, e_glob]
      by_cases hpg : x / c.page = ws / c.page
      · rw [hpg, upd_same] at hd
        exact hcalm hd x hx1 hx2 hpg
      · rw [upd_other hpg] at hd
        rw [efile]
        refine hf.2 hd ?_
        intro q t b eq
        obtain ⟨q', t', b', e'⟩ := exempt_upd hfl e_pc ⟨q, t, b, eq⟩
        exact hq q' t' b' e'
  rw [goDrain]
  split
  · rename_i hc
    refine h.hold (pc' := .drain we xmax we (fun _ => .frozen))
      (Inv.myLock hl) (Or.inl (by rw [hp]; rfl)) (Or.inl rfl) rfl rfl rfl rfl rfl (Nat.le_refl _)
      (Nat.le_refl _) rfl h.wrWip ?_ h.ring h.slots ?_ (Or.inl ⟨hl, ?_⟩)
    · intro x x1 x2
      exact absurd (Nat.lt_of_le_of_lt x1 x2) (Nat.lt_irrefl _)
    · intro x x1 x2
      have x2' : x < s.wr := x2
      refine hfiled _ (.drain we xmax we (fun _ => .frozen)) ?_ ?_ ?_ ?_ ?_ ?_ x x1 (by omega)
        (Or.inl (h.filed x x1 x2)) <;> rfl
    · refine ⟨⟨d1, Nat.le_trans d2 d3, Nat.le_refl _, d4, d5, d.empty, d.ring, ?_, ?_⟩, hc, ?_⟩
      · intro y y1 y2
        exact absurd (Nat.lt_of_le_of_lt y1 y2) (Nat.lt_irrefl _)
      · intro y y1 y2
        have hy : Filed c s y ∨ (ws ≤ y ∧ y < we) := by
          rcases Nat.lt_or_ge y ws with h3 | h3
          · exact Or.inl (d.filed y y1 h3)
          · exact Or.inr ⟨h3, y2⟩
        have y1' : s.wr ≤ y := y1
        refine hfiled _ (.drain we xmax we (fun _ => .frozen)) ?_ ?_ ?_ ?_ ?_ ?_ y (by omega) y2
          hy <;> rfl
      · have := Nat.lt_mul_div_succ we c.hpage
        rw [Nat.mul_comm] at this
        omega
  · rename_i hc
    have hwx : we = xmax := by omega
    refine h.hold (pc' := .drainEnd xmax)
      (Inv.myLock hl) (Or.inl (by rw [hp]; rfl)) (Or.inl rfl) rfl rfl rfl rfl rfl (Nat.le_refl _)
      (Nat.le_refl _) rfl h.wrWip ?_ h.ring h.slots ?_ (Or.inl ⟨hl, ?_⟩)
    · intro x x1 x2
      exact absurd (Nat.lt_of_le_of_lt x1 x2) (Nat.lt_irrefl _)
    · intro x x1 x2
      have x2' : x < s.wr := x2
      refine hfiled _ (.drainEnd xmax) ?_ ?_ ?_ ?_ ?_ ?_ x x1 (by omega)
        (Or.inl (h.filed x x1 x2)) <;> rfl
    · refine ⟨d1, by show s.wr ≤ xmax; omega, Nat.le_refl _, Nat.le_refl _, d5, ?_, ?_, ?_, ?_⟩
      · intro y y1 y2
        exact d.empty y y1 (by omega)
      · intro y y1 y2
        exact absurd (Nat.lt_of_le_of_lt y1 y2) (Nat.lt_irrefl _)
      · intro y y1 y2
        exact absurd (Nat.lt_of_le_of_lt y1 y2) (Nat.lt_irrefl _)
      · intro y y1 y2
        have hy : Filed c s y ∨ (ws ≤ y ∧ y < we) := by
          rcases Nat.lt_or_ge y ws with h3 | h3
          · exact Or.inl (d.filed y y1 h3)
          · exact Or.inr ⟨h3, by omega⟩
        have y1' : s.wr ≤ y := y1
        refine hfiled _ (.drainEnd xmax) ?_ ?_ ?_ ?_ ?_ ?_ y (by omega) (by omega) hy <;> rfl

theorem Inv.goDrainEnd {xmax : Nat} (h : Inv c s) (hp : s.pc p = .drainEnd xmax) :
    Inv c (goDrain c s p (.drainEnd xmax)) := by
  have hl := h.holder p (by rw [hp]; rfl)
  have d := h.held p hl
  rw [hp] at d
  have d : Draining c s xmax xmax xmax (fun _ => .frozen) := d
  have hfl : ∀ pg t b, s.pc p ≠ .flDisk pg t b := by rw [hp]; intro _ _ _ e; cases e
  have d1 := d.top
  have d2 := d.wsLo
  have d5 := d.hi
  rw [goDrain]
  split
  · refine h.hold (pc' := .drainUnlock)
      (Inv.myLock hl) (Or.inl (by rw [hp]; rfl)) (Or.inl rfl) rfl rfl rfl rfl rfl (Nat.le_refl _)
      d2 rfl (Nat.le_of_eq d1) ?_ ?_ ?_ ?_ (Or.inl ⟨hl, d1.symm⟩)
    · intro x x1 x2
      exact absurd (Nat.lt_of_le_of_lt x1 x2) (Nat.lt_irrefl _)
    · intro x x1 x2
      exact h.wrap d1.symm d.empty d5 (by rw [d1]; exact x1) x2
    · intro x x1 x2
      exact Or.inl (h.wrap d1.symm d.empty d5 x1 x2)
    · intro x x1 x2
      have hf : Filed c s x := by
        rcases Nat.lt_or_ge x s.wr with h3 | h3
        · exact h.filed x x1 h3
        · exact d.filed x h3 x2
      refine Inv.filedKeep (s := s) (p := p) (pc' := .drainUnlock) ?_ ?_ ?_ ?_ ?_ ?_ hfl hf <;> rfl
  · exact h

theorem Inv.goDrainUnlock (h : Inv c s) (hp : s.pc p = .drainUnlock) :
    Inv c (goDrain c s p .drainUnlock) := by
  have hl := h.holder p (by rw [hp]; rfl)
  have hh := h.held p hl
  rw [hp] at hh
  exact h.keep (pc' := .idle) hl (by rw [hp]; rfl) (by rw [hp]; intro _ _ _ e; cases e)
    (Or.inr rfl) rfl rfl rfl rfl rfl rfl rfl rfl rfl rfl rfl rfl (Or.inr ⟨rfl, hh, rfl⟩)

theorem Inv.goFreeze {cur g : Nat} (h : Inv c s) (hp : s.pc p = .freeze cur g) :
    Inv c (goFreeze c s p cur g) := by
  have hl := h.holder p (by rw [hp]; rfl)
  have hh := h.held p hl
  rw [hp] at hh
  obtain ⟨h1, h2, h3, h4, h5, h6⟩ := hh
  have hfl : ∀ pg t b, s.pc p ≠ .flDisk pg t b := by rw [hp]; intro _ _ _ e; cases e
  rw [Verif.OxidMap.goFreeze]
  split
  · rename_i hc
    obtain ⟨e1, e2, e3⟩ := h.emptied (cur := cur) (by omega) (by omega) (by omega)
    refine h.hold (pc' := .freeze (cur + 1) g)
      (Inv.myLock hl) (Or.inl (by rw [hp]; rfl)) (Or.inl rfl) rfl rfl rfl rfl rfl (Nat.le_refl _)
      (Nat.le_refl _) rfl h.wrWip ?_ e1 e2 ?_ (Or.inl ⟨hl, ?_⟩)
    · intro x x1 x2
      exact absurd (Nat.lt_of_le_of_lt x1 x2) (Nat.lt_irrefl _)
    · intro x x1 x2
      refine Inv.filedKeep (s := s) (p := p) (pc' := .freeze (cur + 1) g) ?_ ?_ ?_ ?_ ?_ ?_ hfl
        (h.filed x x1 x2) <;> rfl
    · refine ⟨h1, Nat.le_succ_of_le h2, hc, h4, h5, ?_⟩
      intro y y1 y2
      show upd s.ring (cur % c.size) .frozen (y % c.size) = .frozen
      by_cases e : y = cur
      · rw [e, upd_same]
      · have y1' : s.wr ≤ y := y1
        rw [e3 y y1 (by omega) e]
        exact h6 y y1 (by omega)
  · rename_i hc
    have hg : cur = g := by omega
    subst hg
    refine h.hold (pc' := .idle)
      (Inv.myLock hl) (Or.inl (by rw [hp]; rfl)) (Or.inr rfl) rfl rfl rfl rfl rfl (Nat.le_refl _)
      h2 rfl (Nat.le_of_eq h1) ?_ ?_ ?_ ?_ (Or.inr ⟨rfl, h1.symm, rfl⟩)
    · intro x x1 x2
      exact absurd (Nat.lt_of_le_of_lt x1 x2) (Nat.lt_irrefl _)
    · intro x x1 x2
      exact h.wrap h1.symm h6 h5 (by rw [h1]; exact x1) x2
    · intro x x1 x2
      exact Or.inl (h.wrap h1.symm h6 h5 x1 x2)
    · intro x x1 x2
      have hx : x < s.glob := Nat.lt_of_lt_of_le x2 h4
      exact ⟨Or.inr hx, fun _ _ => Or.inr hx⟩

theorem Inv.goFlush {pc : Pc} (h : Inv c s) (hp : s.pc p = pc) : Inv c (goFlush c s p pc) := by
  cases pc with
  | flPreload pg =>
    have hl := h.holder p (by rw [hp]; rfl)
    have hh := h.held p hl
    rw [hp] at hh
    have hfl : ∀ pg t b, s.pc p ≠ .flDisk pg t b := by rw [hp]; intro _ _ _ e; cases e
    rw [Verif.OxidMap.goFlush]
    split
    · refine h.keep (s' := s.at p (.flCopy pg true s.file)) (pc' := .flCopy pg true s.file) hl
        (by rw [hp]; rfl) hfl
        (Or.inl rfl) rfl rfl rfl rfl rfl rfl rfl rfl rfl rfl rfl rfl (Or.inl ⟨hl, hh, ?_, ?_⟩)
      · intro _ x x1 x2 _
        exact (h.filed x x1 x2).1
      · intro e
        cases e
    · rename_i hc
      refine h.keep (s' := s.at p (.flCopy pg false (fun _ => .frozen)))
        (pc' := .flCopy pg false (fun _ => .frozen)) hl (by rw [hp]; rfl) hfl
        (Or.inl rfl) rfl rfl rfl rfl rfl rfl rfl rfl rfl rfl rfl rfl (Or.inl ⟨hl, hh, ?_, ?_⟩)
      · intro e
        cases e
      · intro _ x hx
        have := page_le hx
        show s.wr ≤ x
        omega
  | flCopy pg t buf =>
    have hl := h.holder p (by rw [hp]; rfl)
    have hh := h.held p hl
    rw [hp] at hh
    obtain ⟨h1, h2, h3⟩ := hh
    have hfl : ∀ pg t b, s.pc p ≠ .flDisk pg t b := by rw [hp]; intro _ _ _ e; cases e
    refine h.keep (s' := s.at p (.flRefresh pg t
        (fun x => if x < s.wr then buf x else s.ring (x % c.size))))
      (pc' := .flRefresh pg t (fun x => if x < s.wr then buf x else s.ring (x % c.size))) hl
      (by rw [hp]; rfl) hfl
      (Or.inl rfl) rfl rfl rfl rfl rfl rfl rfl rfl rfl rfl rfl rfl (Or.inl ⟨hl, h1, ?_, h3⟩)
    intro e x x1 x2 x3
    dsimp only
    rw [if_pos (show x < s.wr from x2)]
    exact h2 e x x1 x2 x3
  | flRefresh pg t buf =>
    have hl := h.holder p (by rw [hp]; rfl)
    have hh := h.held p hl
    rw [hp] at hh
    obtain ⟨h1, h2, h3⟩ := hh
    have hfl : ∀ pg t b, s.pc p ≠ .flDisk pg t b := by rw [hp]; intro _ _ _ e; cases e
    refine h.hold (pc' := .flDisk pg t buf)
      (Inv.myLock hl) (Or.inl (by rw [hp]; rfl)) (Or.inl rfl) rfl rfl rfl rfl rfl (Nat.le_refl _)
      (Nat.le_refl _) rfl h.wrWip ?_ h.ring h.slots ?_ (Or.inl ⟨hl, h1, h2, h3⟩)
    · intro x x1 x2
      exact absurd (Nat.lt_of_le_of_lt x1 x2) (Nat.lt_irrefl _)
    · intro x x1 x2
      have hf := h.filed x x1 x2
      by_cases e : x / c.page = pg
      · refine ⟨?_, ?_⟩
        · show setPage c s.file pg buf x = s.st x ∨ x < s.glob
          rw [show setPage c s.file pg buf x = buf x from if_pos e]
          cases t with
          | true => exact h2 rfl x x1 x2 e
          | false =>
            have := h3 rfl x e
            have x2' : x < s.wr := x2
            omega
        · intro _ hq
          refine absurd ?_ (hq p t buf)
          show upd s.pc p _ p = _
          rw [upd_same, e]
      · refine hf.mono (s' := ({ s with
          file := setPage c s.file pg buf
          fdirty := upd s.fdirty pg false } : St).at p (.flDisk pg t buf)) rfl ?_ (Nat.le_refl _) ?_ (exempt_upd hfl rfl)
        · exact if_neg e
        · intro hd
          have hd' : upd s.fdirty pg false (x / c.page) = false := hd
          rw [upd_other e] at hd'
          exact ⟨hd', rfl⟩
  | flDisk pg t buf =>
    have hl := h.holder p (by rw [hp]; rfl)
    have hh := h.held p hl
    rw [hp] at hh
    obtain ⟨h1, h2, h3⟩ := hh
    refine h.hold (pc' := .idle)
      (Inv.myLock hl) (Or.inl (by rw [hp]; rfl)) (Or.inr rfl) rfl rfl rfl rfl rfl (Nat.le_refl _)
      (Nat.le_refl _) rfl h.wrWip ?_ h.ring h.slots ?_ (Or.inr ⟨rfl, h1, rfl⟩)
    · intro x x1 x2
      exact absurd (Nat.lt_of_le_of_lt x1 x2) (Nat.lt_irrefl _)
    · intro x x1 x2
      have hf := h.filed x x1 x2
      by_cases e : x / c.page = pg
      · refine ⟨hf.1, ?_⟩
        intro _ _
        show s.file x = setPage c s.disk pg buf x ∨ x < s.glob
        rw [show setPage c s.disk pg buf x = buf x from if_pos e]
        cases t with
        | true =>
          rcases hf.1 with h4 | h4
          · rcases h2 rfl x x1 x2 e with h5 | h5
            · exact Or.inl (h4.trans h5.symm)
            · exact Or.inr h5
          · exact Or.inr h4
        | false =>
          have := h3 rfl x e
          have x2' : x < s.wr := x2
          omega
      · refine hf.mono (s' := ({ s with
          disk := setPage c s.disk pg buf
          lock := none } : St).at p .idle) rfl rfl (Nat.le_refl _) ?_ ?_
        · intro hd
          exact ⟨hd, if_neg e⟩
        · rintro ⟨q, t', b', hq⟩
          have hlq := h.holder q (by rw [hq]; rfl)
          rw [hl] at hlq
          cases hlq
          rw [hp] at hq
          cases hq
          exact absurd rfl e
  | _ => exact h

end Verif.OxidMap
