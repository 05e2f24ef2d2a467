import Verif.OxidMap.Frame

/-!
# Steps of look-ups and calls
-/

set_option linter.unusedVariables false

namespace Verif.OxidMap

variable {c : Cfg} {s s' : St} {p q : Nat}

theorem St.finished_begun (h : Inv c s) {x : Nat} (hx : (s.st x).finished = true) :
    c.start ≤ x ∧ x < s.next ∧ x + 1 < s.wr + c.size := by
  refine h.begun x (fun e => ?_)
  rw [e] at hx
  cases hx

/-- A session moves, with nothing else. -/
theorem Inv.goto {pc' : Pc} (h : Inv c s) (hno : (s.pc p).holds = false)
    (hno' : pc'.holds = false) (hpc : PcOk c (s.at p pc') p pc')
    (hresp : (s.st s.run).finished = true → Resp s (s.pc p) → Resp (s.at p pc') pc') :
    Inv c (s.at p pc') :=
  Inv.move (own' := s.own) (es := []) (bits' := s.bits) (spin' := s.spin) h (Or.inl rfl)
    (fun e he => absurd he List.not_mem_nil) hno hno' hpc hresp h.hist

/-- A session ends its transaction. -/
theorem Inv.leave (h : Inv c s) (hno : (s.pc p).holds = false) (hend : Ended s p)
    (hresp : (s.st s.run).finished = true → ¬ Resp s (s.pc p)) :
    Inv c { s with
      own := upd s.own p none
      pc := upd s.pc p .idle } :=
  Inv.move (own' := upd s.own p none) (es := []) (bits' := s.bits) (spin' := s.spin) h
    (Or.inr ⟨rfl, hend⟩) (fun e he => absurd he List.not_mem_nil) hno rfl
    (fun x hx => by
      have : upd s.own p none p = some x := hx
      rw [upd_same] at this
      cases this)
    (fun h1 h2 => absurd h2 (hresp h1)) h.hist

/-- A session moves, with an event of its own. -/
theorem Inv.tell {pc' : Pc} {e : Ev} (h : Inv c s) (hl : ∀ y v, e ≠ .lin y v)
    (he : ∀ q, q ≠ p → Foreign q e) (hno : (s.pc p).holds = false)
    (hno' : pc'.holds = false) (hpc : PcOk c ((s.ev e).at p pc') p pc')
    (hresp : (s.st s.run).finished = true → Resp s (s.pc p) → Resp ((s.ev e).at p pc') pc')
    (hhist : C19 (e :: s.tr)) : Inv c ((s.ev e).at p pc') :=
  Inv.move (own' := s.own) (es := [e]) (bits' := s.bits) (spin' := s.spin) h (Or.inl rfl)
    (fun e' he' => by
      rw [List.mem_singleton] at he'
      subst he'
      exact ⟨hl, he⟩) hno hno' hpc hresp hhist

/-- The end of a look-up. -/
theorem Inv.mapDone {run : Bool} {x : Nat} {k : Q} {v : Csn} (h : Inv c s)
    (hp : s.pc p = .map run x k)
    (hv : Seen s p run x v ∨ (v = .frozen ∧ x < s.glob))
    (hk : (s.st s.run).finished = true → v.finished = false → ¬ Resp s (s.pc p)) :
    Inv c (mapDone s p run x v) := by
  have hpc := h.pcs p
  rw [hp] at hpc
  have hno : (s.pc p).holds = false := by rw [hp]; rfl
  cases run with
  | true =>
    obtain ⟨h1, h2, h3, h4, h5⟩ := hpc
    show Inv c (if v.finished then s.at p (.runCas x)
      else { s with own := upd s.own p none, pc := upd s.pc p .idle })
    split
    · rename_i hf
      have hfin : (s.st x).finished = true := by
        rcases hv with hv | ⟨hv, _⟩
        · exact hv hf
        · subst hv
          cases hf
      refine h.goto hno rfl ⟨h1, h2, h3, hfin⟩ ?_
      intro _ hr
      rw [hp] at hr
      cases k <;> first | exact hr | exact hr.1
    · rename_i hf
      exact h.leave hno h1 (fun hr => hk hr (by simpa using hf))
  | false =>
    obtain ⟨h1, h2, h3, h4, h5⟩ := hpc
    show Inv c ((s.ev (.ret p (.get x) v)).at p .idle)
    refine h.tell (fun _ _ e => by cases e) (fun q hq => Foreign.ret (Ne.symm hq)) hno rfl ?_ ?_ ?_
    · intro y hy
      exact h1 y hy
    · intro _ hr
      rw [hp] at hr
      exact hr.elim
    · refine h.hist.cons ?_ (fun _ _ _ e => by cases e) (fun _ _ e => by cases e)
      intro p' x' v' e
      cases e
      rcases hv with hv | ⟨hv, hg⟩
      · exact Or.inl hv
      · refine Or.inr ⟨hv, h.runOver x h2 (Nat.lt_of_lt_of_le hg h.globRun), s.glob,
          h.globEv (by omega), hg⟩

theorem Inv.goMap {run : Bool} {x : Nat} {k : Q} (h : Inv c s) (hp : s.pc p = .map run x k) :
    Inv c (goMap c s p run x k) := by
  have hpc := h.pcs p
  rw [hp] at hpc
  have hno : (s.pc p).holds = false := by rw [hp]; rfl
  have hq : QOk s p run x k := by
    cases run with
    | true => exact hpc.2.2.2.2
    | false => exact hpc.2.2.2.2
  have hx : c.start ≤ x ∧ x < s.wr + c.size := by
    cases run with
    | true => exact ⟨hpc.2.1, hpc.2.2.2.1⟩
    | false => exact ⟨hpc.2.1, hpc.2.2.1⟩
  have hrr : run = true → Resp s (s.pc p) → x = s.run := by
    intro e hr
    subst e
    rw [hp] at hr
    cases k <;> first | exact hr | exact hr.1
  have hseen : Seen s p run x (s.st x) := by
    cases run with
    | true => exact id
    | false => exact ⟨s.tr, hpc.2.2.2.1, rfl⟩
  have hmove : ∀ k', QOk s p run x k' →
      ((s.st s.run).finished = true → run = true → Resp s (s.pc p) →
        Resp s (.map run x k')) → Inv c (s.at p (.map run x k')) := by
    intro k' hk' hr'
    refine h.goto hno rfl ?_ ?_
    · cases run with
      | true => exact ⟨hpc.1, hpc.2.1, hpc.2.2.1, hpc.2.2.2.1, hk'⟩
      | false => exact ⟨hpc.1, hpc.2.1, hpc.2.2.1, hpc.2.2.2.1, hk'⟩
    · intro h1 h2
      cases run with
      | true => exact hr' h1 rfl h2
      | false =>
        rw [hp] at h2
        exact h2.elim
  cases k with
  | ring =>
    refine hmove (.wip (s.ring (x % c.size))) ?_ ?_
    · intro hw
      rw [h.ring x hw hx.2]
      exact hseen
    · intro hf e hr
      subst e
      have e := hrr rfl hr
      refine ⟨e, ?_⟩
      by_cases hw : s.wip ≤ x
      · refine Or.inl ?_
        rw [h.ring x hw hx.2, e]
        exact hf
      · exact Or.inr (by omega)
  | wip v =>
    show Inv c (if s.wip ≤ x then Verif.OxidMap.mapDone s p run x v else s.at p (.map run x .written))
    split
    · rename_i hw
      refine h.mapDone hp (Or.inl (hq hw)) ?_
      intro hf hv hr
      cases run with
      | true =>
        rw [hp] at hr
        rcases hr.2 with e | e
        · rw [hv] at e
          cases e
        · omega
      | false =>
        rw [hp] at hr
        exact hr.elim
    · rename_i hw
      refine hmove .written (Nat.lt_of_not_le hw) ?_
      intro hf e hr
      subst e
      exact hrr rfl hr
  | written =>
    show Inv c (if s.wr ≤ x then s.at p (.map run x .lock) else s.at p (.map run x .file))
    split
    · refine hmove .lock hq ?_
      intro hf e hr
      subst e
      exact hrr rfl hr
    · rename_i hw
      refine hmove .file (Nat.lt_of_not_le hw) ?_
      intro hf e hr
      subst e
      exact hrr rfl hr
  | lock =>
    show Inv c (if s.lock = none then s.at p (.map run x .file) else s)
    split
    · rename_i hl
      have hw := h.lockFree hl
      have hq' : x < s.wip := hq
      refine hmove .file (show x < s.wr by omega) ?_
      intro hf e hr
      subst e
      exact hrr rfl hr
    · exact h
  | file =>
    have hf := (h.filed x hx.1 hq).1
    refine hmove (.glob (s.file x)) ?_ ?_
    · rcases hf with hf | hf
      · rw [hf]
        exact Or.inr hseen
      · exact Or.inl hf
    · intro hfin e hr
      subst e
      have e := hrr rfl hr
      refine ⟨e, ?_⟩
      rcases hf with hf | hf
      · rw [hf, e]
        exact hfin
      · have := h.globRun
        omega
  | glob v =>
    show Inv c (if x < s.glob then Verif.OxidMap.mapDone s p run x .frozen
      else Verif.OxidMap.mapDone s p run x v)
    have := h.globRun
    split
    · rename_i hg
      refine h.mapDone hp (Or.inr ⟨rfl, hg⟩) ?_
      intro _ _ hr
      cases run with
      | true =>
        have := hrr rfl hr
        omega
      | false =>
        rw [hp] at hr
        exact hr.elim
    · rename_i hg
      refine h.mapDone hp (Or.inl (hq.resolve_left hg)) ?_
      intro _ hv hr
      cases run with
      | true =>
        rw [hp] at hr
        have := hr.2
        rw [hv] at this
        cases this
      | false =>
        rw [hp] at hr
        exact hr.elim

theorem pc_idle (h : (s.pc p).isIdle = true) : s.pc p = .idle := by
  cases hp : s.pc p <;> rw [hp] at h <;> first | rfl | cases h

theorem Inv.get {x : Nat} (h : Inv c s) (hp : s.pc p = .idle) (hk : known s x = true) :
    Inv c ((s.ev (.call p (.get x))).at p (.map false x .ring)) := by
  have hpc := h.pcs p
  rw [hp] at hpc
  have hno : (s.pc p).holds = false := by rw [hp]; rfl
  have hx : s.st x ≠ .frozen := by
    rw [known, List.any_eq_true] at hk
    obtain ⟨e, he, hv⟩ := hk
    cases e with
    | lin y v =>
      have e : y = x := by simpa using hv
      subst e
      exact h.lins _ _ he
    | call _ _ => cases hv
    | ret _ _ _ => cases hv
    | global _ => cases hv
  obtain ⟨h1, h2, h3⟩ := h.begun x hx
  refine h.tell (fun _ _ e => by cases e) (fun q hq => Foreign.call (Ne.symm hq)) hno rfl ?_ ?_ ?_
  · refine ⟨fun y hy => hpc y hy, h1, ?_, During.start, trivial⟩
    show x < s.wr + c.size
    omega
  · intro _ hr
    rw [hp] at hr
    exact hr.elim
  · exact h.hist.cons (fun _ _ _ e => by cases e) (fun _ _ _ e => by cases e)
      (fun _ _ e => by cases e)

theorem Inv.set {x : Nat} {v : Csn} (h : Inv c s) (hp : s.pc p = .idle) (ho : s.own p = some x)
    (hv : v.okFor p = true) : Inv c ((s.ev (.call p (.set x v))).at p (.setOld x v)) := by
  have hpc := h.pcs p
  rw [hp] at hpc
  have hno : (s.pc p).holds = false := by rw [hp]; rfl
  refine h.tell (fun _ _ e => by cases e) (fun q hq => Foreign.call (Ne.symm hq)) hno rfl ?_ ?_ ?_
  · exact ⟨⟨ho, hv, During.start⟩, hpc x ho⟩
  · intro _ hr
    rw [hp] at hr
    exact hr.elim
  · exact h.hist.cons (fun _ _ _ e => by cases e) (fun _ _ _ e => by cases e)
      (fun _ _ e => by cases e)

end Verif.OxidMap
