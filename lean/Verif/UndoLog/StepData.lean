import Verif.UndoLog.Data

/-!
# Contents of the undo log, in calm runs: every step
-/

namespace Verif.UndoLog

variable {c : Cfg} {s s' : St}

theorem mem_reads_ok {p loc : Nat} {h buf : Nat → Nat} {q x v : Nat} {vs : List Nat} :
    ∀ {k}, .read q x v vs ∈ reads s p loc h buf k →
      (∀ y, loc ≤ y → y < loc + k → acc s.hist h y (buf y)) → v ∈ vs
  | 0, h1, _ => by simp [reads] at h1
  | k + 1, h1, h2 => by
    simp only [reads, List.mem_cons] at h1
    rcases h1 with h1 | h1
    · cases h1
      exact h2 (loc + k) (by omega) (by omega)
    · exact mem_reads_ok h1 (fun y h3 h4 => h2 y h3 (by omega))

theorem data_evictStart {p t m : Nat} {pc : Pc} (h : Data c s) (hf : lockFree s = true)
    (hpc : ∀ loc n j, s.pc p ≠ .fill loc n j) (hlost : pc ≠ .lost) (h1 : pc.wr = none)
    (h2 : ∀ loc vs m j, pc ≠ .wr7 loc vs m j) (h3 : pc.rd = none) :
    Data c (evictStart s p t m pc) := by
  have hn : s.ev = none := by
    unfold lockFree at hf
    cases e : s.ev with
    | none => rfl
    | some e' => rw [e] at hf; simp at hf
  unfold evictStart
  exact
  { ring := h.ring
    file := h.file
    done := by intro e z he hz; cases he; simp [EvPc.done] at hz
    start := by intro e z he hz; cases he; simp [EvPc.start] at hz
    used := h.used
    full := by
      intro r hr x h4 h5
      rcases h.full r hr x h4 h5 with h6 | ⟨q, j, h6, h7, h8⟩
      · exact .inl h6
      · right
        refine ⟨q, j, h6, ?_, h8⟩
        by_cases e : q = p
        · subst e; exact absurd h7 (hpc _ _ _)
        · dsimp only; rw [upd_ne e]; exact h7
    proc := by
      intro q hq
      dsimp only
      by_cases e : q = p
      · subst e; rw [upd_self]; exact WOk.other h1 h2 h3
      · rw [upd_ne e]
        have hw := h.proc q hq
        exact
          { wr := hw.wr
            wr7 := hw.wr7
            res := hw.res
            pin0 := hw.pin0
            pin1 := by intro m' e' r t' _ he hd; cases he; simp at hd
            ring := by
              intro m' hm'
              obtain ⟨h4, h5 | ⟨e', h5, _⟩⟩ := hw.ring m' hm'
              · exact ⟨h4, .inl h5⟩
              · rw [hn] at h5; simp at h5
            rd := hw.rd
            rd1 := hw.rd1
            rd2 := hw.rd2
            rd3 := hw.rd3
            rd4 := hw.rd4 }
    obs := h.obs
    lost := by
      intro q
      dsimp only
      by_cases e : q = p
      · subst e; rw [upd_self]; exact hlost
      · rw [upd_ne e]; exact h.lost q }

/-- What a read sees in the ring. -/
theorem read_ring {q loc n x : Nat} {f : Nat → Nat} (hi : Inv c s) (hr : Ret c s) (h : Data c s)
    (hq : q < c.procs) (hrd : (s.pc q).rd = some (loc, n, f)) (hx1 : loc ≤ x) (hx2 : x < loc + n)
    (hw : s.written ≤ x) : acc s.hist f x (s.ring (x % c.size)) := by
  have h1 := (h.proc q hq).rd loc n f hrd x hx1 hx2
  have h2 : s.minRet ≤ loc := ret_use hi.base.marks hr hq (by
    cases e : s.pc q <;> rw [e] at hrd <;> simp [Pc.rd] at hrd <;> simp [Pc.useLoc] <;> omega)
  have h3 : s.hist x ≠ [] := by
    intro e; rw [e] at h1; simp at h1; omega
  exact acc.head (h.ring x h3 (by omega) hw).symm

/-- What a read sees in the file. -/
theorem read_file {q loc n x : Nat} {f : Nat → Nat} (hi : Inv c s) (hr : Ret c s) (h : Data c s)
    (hq : q < c.procs) (hrd : (s.pc q).rd = some (loc, n, f)) (hx1 : loc ≤ x) (hx2 : x < loc + n)
    (hw : x < s.written) : acc s.hist f x ((s.file x).getD 0) := by
  have h1 := (h.proc q hq).rd loc n f hrd x hx1 hx2
  have h2 : s.minRet ≤ loc := ret_use hi.base.marks hr hq (by
    cases e : s.pc q <;> rw [e] at hrd <;> simp [Pc.rd] at hrd <;> simp [Pc.useLoc] <;> omega)
  have h3 : s.hist x ≠ [] := by
    intro e; rw [e] at h1; simp at h1; omega
  have h4 := h.file x h3 (by omega) hw
  cases e : s.hist x with
  | nil => exact absurd e h3
  | cons a l =>
    rw [e] at h4
    refine acc.head ?_
    rw [e, h4]; rfl

/-- The process goes on, and may change what it has reserved. -/
theorem data_to {p : Nat} {pc : Pc} {res : Nat → Option Nat} (h : Data c s)
    (hf : ∀ loc n j, s.pc p ≠ .fill loc n j) (hlost : pc ≠ .lost)
    (hres : ∀ q, q ≠ p → res q = s.res q)
    (hp : p < c.procs → WOk s.used s.written s.wip s.minRes s.um s.ev s.hist p pc (res p)) :
    Data c { to s p pc with res := res } :=
  data_one (p := p) h rfl rfl rfl rfl rfl rfl rfl rfl rfl (Nat.le_refl _) (fun _ hq => upd_ne hq)
    hres (fun _ hm => .inl hm) (fun _ _ _ e => absurd e (hf _ _ _)) (fun _ _ _ _ ho => .inl ho)
    (by simp only [to, upd_self]; exact hlost) (by simp only [to, upd_self]; exact hp)

theorem data_to' {p : Nat} {pc : Pc} (h : Data c s)
    (hf : ∀ loc n j, s.pc p ≠ .fill loc n j) (hlost : pc ≠ .lost)
    (hp : p < c.procs → WOk s.used s.written s.wip s.minRes s.um s.ev s.hist p pc (s.res p)) :
    Data c (to s p pc) := data_to (res := s.res) h hf hlost (fun _ _ => rfl) hp

theorem even_res (h : writeOdd s = false) :
    ∀ u, s.um = some u → u.ev = true → False := by
  intro u h1 h2
  unfold writeOdd at h
  rw [h1] at h
  simp [h2] at h

set_option maxHeartbeats 4000000 in
theorem data_go {p : Nat} (hi : Inv c s) (hr : Ret c s) (h : Data c s) (hp : p < c.procs) :
    Data c (go c s p) := by
  have hpp := hi.base.proc p
  have hw := h.proc p hp
  have hrr := fun loc n f x => @read_ring c s p loc n x f hi hr h hp
  have hrf := fun loc n f x => @read_file c s p loc n x f hi hr h hp
  have hfree := hi.base.marks.free
  unfold go
  split
  all_goals try exact h
  all_goals rename_i hpc; rw [hpc] at hpp hw hrr hrf
  all_goals (try unfold attempt)
  all_goals (try split) <;> (try split)
  all_goals try exact h
  case h_26.isFalse loc vs m hlt =>
    refine data_to' h (by simp [hpc]) (by simp) (fun _ => ?_)
    have h1 := hw.wr _ _ _ rfl
    constructor <;> simp [Pc.wr, Pc.wrRes, Pc.wrPin, Pc.wrRing, Pc.rd]
    intro _ _ _ _ e1 e2 e3 _
    subst e1 e3
    by_cases e : lockFree s = true
    · have := hfree e; omega
    · simp at e
      have h2 : ¬ s.written < m := fun h3 => hlt ⟨h3, e⟩
      omega
  case h_32.isTrue loc n f buf hlt =>
    have h1 : s.minRet ≤ loc := ret_use hi.base.marks hr hp (by rw [hpc]; rfl)
    omega
  all_goals first
    | exact data_to' h (by simp [hpc]) (by simp) (fun _ => WOk.other rfl (by simp) rfl)
    | exact data_to h (by simp [hpc]) (by simp) (fun _ hq => upd_ne hq)
        (fun _ => WOk.other rfl (by simp) rfl)
    | exact data_to (res := s.res) h (by simp [hpc]) (by simp) (fun _ hq => rfl)
        (fun _ => WOk.other rfl (by simp) rfl)
    | exact data_evictStart h (by assumption) (by simp [hpc]) (by simp) rfl (by simp) rfl
    | (refine data_one (p := p) h rfl rfl rfl rfl rfl rfl rfl rfl rfl ?_ ?_ ?_ ?_ ?_ ?_ ?_
         (fun _ => by simp only [to, upd_self]; exact WOk.other rfl (by simp) rfl)
       · first | exact Nat.le_refl _ | exact Nat.le_add_right _ _
       · intro q hq; exact upd_ne hq
       · intro q hq; first | rfl | exact upd_ne hq
       · intro r hm
         first
         | exact .inl hm
         | (rcases List.mem_cons.1 hm with hm | hm
            · right; subst hm; exact ⟨hp, upd_self⟩
            · exact .inl hm)
       · intro loc n j e; rw [hpc] at e; simp at e
       · intro q x v vs ho
         first
         | exact .inl ho
         | (rcases List.mem_cons.1 ho with ho | ho
            · simp at ho
            · exact .inl ho)
       · simp only [to, upd_self]; simp)
    | skip
  case h_20.isTrue loc vs hle =>
    refine data_to' h (by simp [hpc]) (by simp) (fun _ => ?_)
    have h1 := hpp.toPub _ rfl
    constructor <;> simp [Pc.wr, Pc.wrRes, Pc.wrPin, Pc.wrRing, Pc.rd]
    omega
  case h_20.isFalse loc vs hle =>
    refine data_to' h (by simp [hpc]) (by simp) (fun _ => ?_)
    have h1 := hpp.toPub _ rfl
    constructor <;> simp [Pc.wr, Pc.wrRes, Pc.wrPin, Pc.wrRing, Pc.rd]
    omega
  case h_21 loc vs m =>
    refine data_to h (by simp [hpc]) (by simp) (fun _ hq => upd_ne hq) (fun _ => ?_)
    have h1 := hw.wr _ _ _ rfl
    constructor <;> simp [Pc.wr, Pc.wrRes, Pc.wrPin, Pc.wrRing, Pc.rd, upd_self]
    omega
  case h_22.isFalse loc vs m hodd =>
    refine data_to' h (by simp [hpc]) (by simp) (fun _ => ?_)
    have h1 := hw.wr _ _ _ rfl
    have h2 := hw.res _ rfl
    have h3 := even_res (s := s) (by simpa using hodd)
    constructor <;> simp [Pc.wr, Pc.wrRes, Pc.wrPin, Pc.wrRing, Pc.rd, h2]
    · omega
    · intro _ u _ h4 h5; exact (h3 u h4 h5).elim
  case h_23.isFalse loc vs m hlt =>
    refine data_to' h (by simp [hpc]) (by simp) (fun _ => ?_)
    have h1 := hw.wr _ _ _ rfl
    have h2 := hw.res _ rfl
    have h3 := hw.pin0 m
    have h4 := hi.base.marks.wWip
    have h5 := hi.base.marks.evTgt
    constructor <;> simp [Pc.wr, Pc.wrRes, Pc.wrPin, Pc.wrRing, Pc.rd, h2]
    · omega
    · intro _ u hm h6 h7; subst hm; exact h3 u rfl h6 h7
    · intro _ e r t hm h6 h7 h8
      have := (h5 e t h6 (by rw [h7]; rfl)).1
      omega
    · omega
  case h_24.isTrue loc vs m j hlt =>
    have h1 := hw.wr _ _ _ rfl
    have h2 := hw.ring _ rfl
    refine data_ring (p := p) (z := m + j) (v := vs.getD (m + j - loc) 0) hi.sums h (by omega)
      (by omega) ?_ rfl rfl rfl rfl rfl rfl rfl rfl rfl rfl (fun q hq => upd_ne hq)
      (fun q hq => rfl) rfl (by simp [hpc]) (by simp [hpc]) (fun _ _ _ _ ho => ho)
      (by simp [to, upd_self]) ?_
    · intro e y he hy
      rcases h2.2 with h3 | ⟨e', h3, h4⟩
      · have hm := hi.base.marks
        cases he' : e.pc <;> rw [he'] at hy <;> simp [EvPc.done] at hy
        · have h4 := hm.evPos e _ _ he (by rw [he']; rfl) (by rw [he']; rfl)
          have h5 := hm.evTgt e _ he (by rw [he']; rfl)
          omega
        · have h5 := hm.evTgt e _ he (by rw [he']; rfl)
          omega
      · rw [he] at h3
        cases h3
        cases he' : e.pc <;> rw [he'] at hy h4 <;> simp [EvPc.done, EvPc.before] at hy h4
    · intro _
      simp only [to, upd_self]
      have h3 := hw.res _ rfl
      have h4 := hw.pin0 m
      have h5 := hw.pin1 m
      constructor <;> simp [Pc.wr, Pc.wrRes, Pc.wrPin, Pc.wrRing, Pc.rd, h3]
      · omega
      · intro _ u hm h6 h7; subst hm; exact h4 u rfl h6 h7
      · intro _ e r t hm h6 h7 h8; subst hm; exact h5 e r t rfl h6 h7 h8
      · exact h2
  case h_24.isFalse loc vs m j hlt =>
    refine data_to' h (by simp [hpc]) (by simp) (fun _ => ?_)
    have h1 := hw.wr _ _ _ rfl
    constructor <;> simp [Pc.wr, Pc.wrRes, Pc.wrPin, Pc.wrRing, Pc.rd]
    omega
  case h_25.isFalse loc vs m hne =>
    refine data_to h (by simp [hpc]) (by simp) (fun _ hq => upd_ne hq) (fun _ => ?_)
    have h1 := hw.wr _ _ _ rfl
    constructor <;> simp [Pc.wr, Pc.wrRes, Pc.wrPin, Pc.wrRing, Pc.rd]
    omega
  case h_27.isTrue loc vs m j hlt =>
    have h1 := hw.wr7 _ _ _ _ rfl
    refine data_file (p := p) (z := loc + j) (v := vs.getD j 0) h (by omega)
      (by omega) rfl rfl rfl rfl rfl rfl rfl rfl rfl rfl (fun q hq => upd_ne hq)
      (fun q hq => rfl) rfl (by simp [hpc]) rfl (by simp [to, upd_self]) ?_
    intro _
    simp only [to, upd_self]
    constructor <;> simp [Pc.wr, Pc.wrRes, Pc.wrPin, Pc.wrRing, Pc.rd]
    omega
  case h_28.isTrue loc n f hlt =>
    refine data_to' h (by simp [hpc]) (by simp) (fun _ => ?_)
    have h1 := hw.rd _ _ _ rfl
    constructor <;> simp [Pc.wr, Pc.wrRes, Pc.wrPin, Pc.wrRing, Pc.rd]
    · exact h1
    · rintro _ _ _ _ _ _ rfl rfl rfl rfl rfl rfl
      refine ⟨by omega, fun y h2 h3 h4 => ?_⟩
      omega
  case h_28.isFalse loc n f hlt =>
    refine data_to' h (by simp [hpc]) (by simp) (fun _ => ?_)
    have h1 := hw.rd _ _ _ rfl
    constructor <;> simp [Pc.wr, Pc.wrRes, Pc.wrPin, Pc.wrRing, Pc.rd]
    · exact h1
    · rintro _ _ _ _ _ _ rfl rfl rfl rfl rfl rfl
      refine ⟨by omega, fun y h2 h3 h4 => ?_⟩
      omega
  case h_29.isTrue loc n f buf w x hlt =>
    refine data_to' h (by simp [hpc]) (by simp) (fun _ => ?_)
    have h1 := hw.rd _ _ _ rfl
    have h2 := hw.rd1 _ _ _ _ _ _ rfl
    have h3 := hrr _ _ _ x rfl
    constructor <;> simp [Pc.wr, Pc.wrRes, Pc.wrPin, Pc.wrRing, Pc.rd]
    · exact h1
    · rintro _ _ _ _ _ _ rfl rfl rfl rfl rfl rfl
      refine ⟨h2.1, fun y h4 h5 h6 h7 => ?_⟩
      by_cases e : y = x
      · subst e; rw [upd_self]; exact h3 h4 h5 h7
      · rw [upd_ne e]; exact h2.2 y h4 h5 (by omega) h7
  case h_29.isFalse loc n f buf w x hlt =>
    refine data_to' h (by simp [hpc]) (by simp) (fun _ => ?_)
    have h1 := hw.rd _ _ _ rfl
    have h2 := hw.rd1 _ _ _ _ _ _ rfl
    constructor <;> simp [Pc.wr, Pc.wrRes, Pc.wrPin, Pc.wrRing, Pc.rd]
    · exact h1
    · rintro _ _ _ _ rfl rfl rfl rfl
      intro y h4 h5 h6; exact h2.2 y h4 h5 (by omega) h6
  case h_30.isTrue loc n f buf hlt =>
    refine data_to' h (by simp [hpc]) (by simp) (fun _ => ?_)
    have h1 := hw.rd _ _ _ rfl
    have h2 := hw.rd2 _ _ _ _ rfl
    constructor <;> simp [Pc.wr, Pc.wrRes, Pc.wrPin, Pc.wrRing, Pc.rd]
    · exact h1
    · rintro _ _ _ _ _ _ rfl rfl rfl rfl rfl rfl
      refine ⟨Nat.min_le_right _ _, fun y h4 h5 h6 => ?_⟩
      exact h2 y h4 h5 (by omega)
  case h_30.isFalse loc n f buf hlt =>
    refine data_to' h (by simp [hpc]) (by simp) (fun _ => ?_)
    have h1 := hw.rd _ _ _ rfl
    have h2 := hw.rd2 _ _ _ _ rfl
    constructor <;> simp [Pc.wr, Pc.wrRes, Pc.wrPin, Pc.wrRing, Pc.rd]
    · exact h1
    · rintro _ _ _ _ rfl rfl rfl rfl
      intro y h4 h5; exact h2 y h4 h5 (by omega)
  case h_31.isTrue loc n f buf w x hlt =>
    refine data_to' h (by simp [hpc]) (by simp) (fun _ => ?_)
    have h1 := hw.rd _ _ _ rfl
    have h2 := hw.rd3 _ _ _ _ _ _ rfl
    have h3 := hrf _ _ _ x rfl
    constructor <;> simp [Pc.wr, Pc.wrRes, Pc.wrPin, Pc.wrRing, Pc.rd]
    · exact h1
    · rintro _ _ _ _ _ _ rfl rfl rfl rfl rfl rfl
      refine ⟨h2.1, fun y h4 h5 h6 => ?_⟩
      by_cases e : y = x
      · subst e; rw [upd_self]; exact h3 h4 h5 (by omega)
      · rw [upd_ne e]; exact h2.2 y h4 h5 (by omega)
  case h_31.isFalse loc n f buf w x hlt =>
    refine data_to' h (by simp [hpc]) (by simp) (fun _ => ?_)
    have h1 := hw.rd _ _ _ rfl
    have h2 := hw.rd3 _ _ _ _ _ _ rfl
    constructor <;> simp [Pc.wr, Pc.wrRes, Pc.wrPin, Pc.wrRing, Pc.rd]
    · exact h1
    · rintro _ _ _ _ rfl rfl rfl rfl
      intro y h4 h5; exact h2.2 y h4 h5 (by omega)
  case h_32.isFalse loc n f buf hlt =>
    have h2 := hw.rd4 _ _ _ _ rfl
    refine data_one (p := p) h rfl rfl rfl rfl rfl rfl rfl rfl rfl (Nat.le_refl _)
      (fun q hq => upd_ne hq) (fun q hq => rfl) (fun r hm => .inl hm) (by simp [hpc]) ?_
      (by simp [to, upd_self])
      (fun _ => by simp only [to, upd_self]; exact WOk.other rfl (by simp) rfl)
    intro q x v vs ho
    rcases List.mem_append.1 ho with ho | ho
    · exact .inr (mem_reads_ok ho h2)
    · exact .inl ho

theorem data_reserve {p k : Nat} (h : Data c s) : Data c (reserve s p k) := by
  unfold reserve
  split <;> (try exact h)
  all_goals rename_i hpc
  all_goals (try split) <;> (try split)
  all_goals try exact h
  all_goals
    refine data_one (p := p) h rfl rfl rfl rfl rfl rfl rfl rfl rfl (Nat.le_refl _)
      ?_ ?_ (fun _ hm => .inl hm) ?_ (fun _ _ _ _ ho => .inl ho) ?_ ?_
  all_goals first
    | exact fun _ _ => rfl
    | exact fun _ hq => upd_ne hq
    | (intro loc n j e; rw [hpc] at e; simp at e)
    | (simp only [to, upd_self]; simp; done)
    | (simp only [hpc]; simp; done)
    | (intro _; simp only [to, upd_self]; exact WOk.other rfl (by simp) rfl)
    | (intro _; simp only [hpc]; exact WOk.other rfl (by simp) rfl)

theorem data_giveUp {p : Nat} (h : Data c s) : Data c (giveUp s p) := by
  unfold giveUp
  split <;> (try exact h)
  all_goals rename_i hpc
  all_goals (try split) <;> (try split)
  all_goals try exact h
  all_goals
    refine data_one (p := p) h rfl rfl rfl rfl rfl rfl rfl rfl rfl (Nat.le_refl _)
      ?_ ?_ (fun _ hm => .inl hm) ?_ (fun _ _ _ _ ho => .inl ho) ?_ ?_
  all_goals first
    | exact fun _ _ => rfl
    | exact fun _ hq => upd_ne hq
    | (intro loc n j e; rw [hpc] at e; simp at e)
    | (simp only [to, upd_self]; simp; done)
    | (simp only [hpc]; simp; done)
    | (intro _; simp only [to, upd_self]; exact WOk.other rfl (by simp) rfl)
    | (intro _; simp only [hpc]; exact WOk.other rfl (by simp) rfl)

theorem data_releaseSize {p : Nat} (h : Data c s) : Data c (releaseSize s p) := by
  unfold releaseSize
  split <;> (try exact h)
  all_goals rename_i hpc
  all_goals (try split) <;> (try split)
  all_goals try exact h
  all_goals
    refine data_one (p := p) h rfl rfl rfl rfl rfl rfl rfl rfl rfl (Nat.le_refl _)
      ?_ ?_ (fun _ hm => .inl hm) ?_ (fun _ _ _ _ ho => .inl ho) ?_ ?_
  all_goals first
    | exact fun _ _ => rfl
    | exact fun _ hq => upd_ne hq
    | (intro loc n j e; rw [hpc] at e; simp at e)
    | (simp only [to, upd_self]; simp; done)
    | (simp only [hpc]; simp; done)
    | (intro _; simp only [to, upd_self]; exact WOk.other rfl (by simp) rfl)
    | (intro _; simp only [hpc]; exact WOk.other rfl (by simp) rfl)

theorem data_bg {p k : Nat} (h : Data c s) : Data c (bg s p k) := by
  unfold bg
  split <;> (try exact h)
  all_goals rename_i hpc
  all_goals (try split) <;> (try split)
  all_goals try exact h
  all_goals
    refine data_one (p := p) h rfl rfl rfl rfl rfl rfl rfl rfl rfl (Nat.le_refl _)
      ?_ ?_ (fun _ hm => .inl hm) ?_ (fun _ _ _ _ ho => .inl ho) ?_ ?_
  all_goals first
    | exact fun _ _ => rfl
    | exact fun _ hq => upd_ne hq
    | (intro loc n j e; rw [hpc] at e; simp at e)
    | (simp only [to, upd_self]; simp; done)
    | (simp only [hpc]; simp; done)
    | (intro _; simp only [to, upd_self]; exact WOk.other rfl (by simp) rfl)
    | (intro _; simp only [hpc]; exact WOk.other rfl (by simp) rfl)

theorem data_get {p k : Nat} (h : Data c s) : Data c (get c s p k) := by
  unfold get
  split <;> (try exact h)
  all_goals rename_i hpc
  all_goals (try split) <;> (try split)
  all_goals try exact h
  all_goals
    refine data_one (p := p) h rfl rfl rfl rfl rfl rfl rfl rfl rfl (Nat.le_refl _)
      ?_ ?_ (fun _ hm => .inl hm) ?_ (fun _ _ _ _ ho => .inl ho) ?_ ?_
  all_goals first
    | exact fun _ _ => rfl
    | exact fun _ hq => upd_ne hq
    | (intro loc n j e; rw [hpc] at e; simp at e)
    | (simp only [to, upd_self]; simp; done)
    | (simp only [hpc]; simp; done)
    | (intro _; simp only [to, upd_self]; exact WOk.other rfl (by simp) rfl)
    | (intro _; simp only [hpc]; exact WOk.other rfl (by simp) rfl)

theorem data_release {p : Nat} (h : Data c s) : Data c (release s p) := by
  unfold release
  split <;> (try exact h)
  all_goals rename_i hpc
  all_goals (try split) <;> (try split)
  all_goals try exact h
  all_goals
    refine data_one (p := p) h rfl rfl rfl rfl rfl rfl rfl rfl rfl (Nat.le_refl _)
      ?_ ?_ (fun _ hm => .inl hm) ?_ (fun _ _ _ _ ho => .inl ho) ?_ ?_
  all_goals first
    | exact fun _ _ => rfl
    | exact fun _ hq => upd_ne hq
    | (intro loc n j e; rw [hpc] at e; simp at e)
    | (simp only [to, upd_self]; simp; done)
    | (simp only [hpc]; simp; done)
    | (intro _; simp only [to, upd_self]; exact WOk.other rfl (by simp) rfl)
    | (intro _; simp only [hpc]; exact WOk.other rfl (by simp) rfl)

theorem data_queue {p : Nat} (h : Data c s) : Data c (queue s p) := by
  unfold queue
  split <;> (try exact h)
  all_goals rename_i hpc
  all_goals (try split) <;> (try split)
  all_goals try exact h
  all_goals
    refine data_one (p := p) h rfl rfl rfl rfl rfl rfl rfl rfl rfl (Nat.le_refl _)
      ?_ ?_ (fun _ hm => .inl hm) ?_ (fun _ _ _ _ ho => .inl ho) ?_ ?_
  all_goals first
    | exact fun _ _ => rfl
    | exact fun _ hq => upd_ne hq
    | (intro loc n j e; rw [hpc] at e; simp at e)
    | (simp only [to, upd_self]; simp; done)
    | (simp only [hpc]; simp; done)
    | (intro _; simp only [to, upd_self]; exact WOk.other rfl (by simp) rfl)
    | (intro _; simp only [hpc]; exact WOk.other rfl (by simp) rfl)

theorem data_wake {p : Nat} (h : Data c s) : Data c (wake s p) := by
  unfold wake
  split <;> (try exact h)
  all_goals rename_i hpc
  all_goals (try split) <;> (try split)
  all_goals try exact h
  all_goals
    refine data_one (p := p) h rfl rfl rfl rfl rfl rfl rfl rfl rfl (Nat.le_refl _)
      ?_ ?_ (fun _ hm => .inl hm) ?_ (fun _ _ _ _ ho => .inl ho) ?_ ?_
  all_goals first
    | exact fun _ _ => rfl
    | exact fun _ hq => upd_ne hq
    | (intro loc n j e; rw [hpc] at e; simp at e)
    | (simp only [to, upd_self]; simp; done)
    | (simp only [hpc]; simp; done)
    | (intro _; simp only [to, upd_self]; exact WOk.other rfl (by simp) rfl)
    | (intro _; simp only [hpc]; exact WOk.other rfl (by simp) rfl)

theorem data_free {p : Nat} (h : Data c s) : Data c (free s p) := by
  unfold free
  split <;> (try exact h)
  all_goals rename_i hpc
  all_goals (try split) <;> (try split)
  all_goals try exact h
  all_goals
    refine data_one (p := p) h rfl rfl rfl rfl rfl rfl rfl rfl rfl (Nat.le_refl _)
      ?_ ?_ (fun _ hm => .inl hm) ?_ (fun _ _ _ _ ho => .inl ho) ?_ ?_
  all_goals first
    | exact fun _ _ => rfl
    | exact fun _ hq => upd_ne hq
    | (intro loc n j e; rw [hpc] at e; simp at e)
    | (simp only [to, upd_self]; simp; done)
    | (simp only [hpc]; simp; done)
    | (intro _; simp only [to, upd_self]; exact WOk.other rfl (by simp) rfl)
    | (intro _; simp only [hpc]; exact WOk.other rfl (by simp) rfl)

theorem data_snap {p : Nat} (h : Data c s) : Data c (snap s p) := by
  unfold snap
  split <;> (try exact h)
  all_goals rename_i hpc
  all_goals (try split) <;> (try split)
  all_goals try exact h
  all_goals
    refine data_one (p := p) h rfl rfl rfl rfl rfl rfl rfl rfl rfl (Nat.le_refl _)
      ?_ ?_ (fun _ hm => .inl hm) ?_ (fun _ _ _ _ ho => .inl ho) ?_ ?_
  all_goals first
    | exact fun _ _ => rfl
    | exact fun _ hq => upd_ne hq
    | (intro loc n j e; rw [hpc] at e; simp at e)
    | (simp only [to, upd_self]; simp; done)
    | (simp only [hpc]; simp; done)
    | (intro _; simp only [to, upd_self]; exact WOk.other rfl (by simp) rfl)
    | (intro _; simp only [hpc]; exact WOk.other rfl (by simp) rfl)

theorem data_drop {p k : Nat} (h : Data c s) : Data c (drop s p k) := by
  unfold drop
  split <;> (try exact h)
  all_goals rename_i hpc
  all_goals (try split) <;> (try split)
  all_goals try exact h
  all_goals
    refine data_one (p := p) h rfl rfl rfl rfl rfl rfl rfl rfl rfl (Nat.le_refl _)
      ?_ ?_ (fun _ hm => .inl hm) ?_ (fun _ _ _ _ ho => .inl ho) ?_ ?_
  all_goals first
    | exact fun _ _ => rfl
    | exact fun _ hq => upd_ne hq
    | (intro loc n j e; rw [hpc] at e; simp at e)
    | (simp only [to, upd_self]; simp; done)
    | (simp only [hpc]; simp; done)
    | (intro _; simp only [to, upd_self]; exact WOk.other rfl (by simp) rfl)
    | (intro _; simp only [hpc]; exact WOk.other rfl (by simp) rfl)

theorem data_reset {p : Nat} (h : Data c s) : Data c (reset s p) := by
  unfold reset
  split <;> (try exact h)
  all_goals rename_i hpc
  all_goals (try split) <;> (try split)
  all_goals try exact h
  all_goals
    refine data_one (p := p) h rfl rfl rfl rfl rfl rfl rfl rfl rfl (Nat.le_refl _)
      ?_ ?_ (fun _ hm => .inl hm) ?_ (fun _ _ _ _ ho => .inl ho) ?_ ?_
  all_goals first
    | exact fun _ _ => rfl
    | exact fun _ hq => upd_ne hq
    | (intro loc n j e; rw [hpc] at e; simp at e)
    | (simp only [to, upd_self]; simp; done)
    | (simp only [hpc]; simp; done)
    | (intro _; simp only [to, upd_self]; exact WOk.other rfl (by simp) rfl)
    | (intro _; simp only [hpc]; exact WOk.other rfl (by simp) rfl)

theorem data_clearMy {p : Nat} (h : Data c s) : Data c (clearMy s p) := by
  unfold clearMy
  split <;> (try exact h)
  all_goals rename_i hpc
  all_goals (try split) <;> (try split)
  all_goals try exact h
  all_goals
    refine data_one (p := p) h rfl rfl rfl rfl rfl rfl rfl rfl rfl (Nat.le_refl _)
      ?_ ?_ (fun _ hm => .inl hm) ?_ (fun _ _ _ _ ho => .inl ho) ?_ ?_
  all_goals first
    | exact fun _ _ => rfl
    | exact fun _ hq => upd_ne hq
    | (intro loc n j e; rw [hpc] at e; simp at e)
    | (simp only [to, upd_self]; simp; done)
    | (simp only [hpc]; simp; done)
    | (intro _; simp only [to, upd_self]; exact WOk.other rfl (by simp) rfl)
    | (intro _; simp only [hpc]; exact WOk.other rfl (by simp) rfl)

theorem data_write {p k : Nat} {vs : List Nat} (h : Data c s) : Data c (write c s p k vs) := by
  unfold write
  split <;> (try exact h)
  all_goals rename_i hpc
  all_goals (try split) <;> (try split)
  all_goals try exact h
  all_goals
    refine data_one (p := p) h rfl rfl rfl rfl rfl rfl rfl rfl rfl (Nat.le_refl _)
      ?_ ?_ (fun _ hm => .inl hm) ?_ (fun _ _ _ _ ho => .inl ho) ?_ ?_
  all_goals first
    | exact fun _ _ => rfl
    | exact fun _ hq => upd_ne hq
    | (intro loc n j e; rw [hpc] at e; simp at e)
    | (simp only [to, upd_self]; simp; done)
    | (simp only [hpc]; simp; done)
    | (intro _; simp only [to, upd_self]; exact WOk.other rfl (by simp) rfl)
    | (intro _; simp only [hpc]; exact WOk.other rfl (by simp) rfl)

theorem complete_full {loc n : Nat} (h : Data c s) (hc : complete c s loc n = true) :
    ∀ x, loc ≤ x → x < loc + n → s.hist x ≠ [] := by
  intro x h1 h2
  unfold complete at hc
  obtain ⟨r, h3, h4⟩ := List.any_eq_true.1 hc
  simp only [Bool.and_eq_true, decide_eq_true_eq, Bool.not_eq_true'] at h4
  rcases h.full r h3 x (by omega) (by omega) with h5 | ⟨q, j, h5, h6, h7⟩
  · exact h5
  · exfalso
    have h8 : filling c s r = true := by
      unfold filling
      exact List.any_eq_true.2 ⟨q, List.mem_range.2 h5, by rw [h6]; simp⟩
    rw [h8] at h4
    simp at h4

theorem data_read {p k n : Nat} (h : Data c s) : Data c (read c s p k n) := by
  unfold read
  split <;> (try exact h)
  rename_i hpc
  split <;> (try exact h)
  rename_i hc
  refine data_to' h (by simp [hpc]) (by simp) (fun _ => ?_)
  constructor <;> simp [Pc.wr, Pc.wrRes, Pc.wrPin, Pc.wrRing, Pc.rd]
  intro x h1 h2
  have h3 := complete_full h hc.2.1 x h1 h2
  exact List.length_pos_iff.2 h3

theorem data_same (h : Data c s) (e1 : s'.ring = s.ring) (e2 : s'.file = s.file)
    (e3 : s'.hist = s.hist) (e4 : s'.written = s.written) (e5 : s'.wip = s.wip)
    (e6 : s'.minRes = s.minRes) (e7 : s'.minRet = s.minRet) (e8 : s'.um = s.um)
    (e9 : s'.ev = s.ev) (e10 : s'.used = s.used) (e11 : s'.pc = s.pc) (e12 : s'.res = s.res)
    (e13 : s'.recs = s.recs) (e14 : s'.obs = s.obs) : Data c s' :=
  { ring := by rw [e1, e3, e4, e7]; exact h.ring
    file := by rw [e2, e3, e4, e7]; exact h.file
    done := by rw [e2, e3, e4, e7, e9]; exact h.done
    start := by rw [e4, e7, e9]; exact h.start
    used := by rw [e3, e10]; exact h.used
    full := by rw [e3, e11, e13]; exact h.full
    proc := by rw [e3, e4, e5, e6, e8, e9, e10, e11, e12]; exact h.proc
    obs := by rw [e14]; exact h.obs
    lost := by rw [e11]; exact h.lost }

theorem data_steal {q p : Nat} (h : Data c s) : Data c (steal s q p) := by
  unfold steal
  split <;> first
    | exact h
    | exact data_same h rfl rfl rfl rfl rfl rfl rfl rfl rfl rfl rfl rfl rfl rfl

theorem data_hand {q p : Nat} (h : Data c s) : Data c (hand s q p) := by
  unfold hand
  split <;> (try split) <;> first
    | exact h
    | exact data_same h rfl rfl rfl rfl rfl rfl rfl rfl rfl rfl rfl rfl rfl rfl

theorem data_lose {x : Nat} (hm : Marks c s) (h : Data c s) : Data c (lose s x) := by
  unfold lose
  split <;> (try exact h)
  rename_i hx
  have h1 := hm.cleaned
  exact
  { ring := h.ring
    file := by
      intro y h2 h3 h4
      dsimp only at *
      rw [upd_ne (by omega)]
      exact h.file y h2 h3 h4
    done := by
      intro e z h2 h3 y h4 h5 h6 h7
      dsimp only at *
      rw [upd_ne (by omega)]
      exact h.done e z h2 h3 y h4 h5 h6 h7
    start := h.start
    used := h.used
    full := h.full
    proc := h.proc
    obs := h.obs
    lost := h.lost }

theorem data_put {p v : Nat} (hi : Inv c s) (h : Data c s) : Data c (put c s p v) := by
  unfold put
  split <;> (try exact h)
  rename_i loc n j hpc
  obtain ⟨hp, hpin⟩ := hi.base.pin p loc (by rw [hpc]; rfl)
  have hpp := hi.base.proc p
  rw [hpc] at hpp
  have h1 := hi.base.recs _ (hpp.made _ rfl)
  have h2 := hpp.fill _ _ _ rfl
  have hm := hi.base.marks
  have h3 := hm.wWip
  have h4 := hpin.wip
  dsimp only at h1
  refine data_ring (p := p) (z := loc + j) (v := v) hi.sums h (by omega) (by omega) ?_
    rfl rfl rfl rfl rfl rfl rfl rfl rfl rfl (fun q hq => upd_ne hq)
    (fun q hq => rfl) rfl ?_ ?_ ?_ ?_ ?_
  · intro e y he hy
    cases he' : e.pc <;> rw [he'] at hy <;> simp [EvPc.done] at hy
    · have h5 := hm.evPos e _ _ he (by rw [he']; rfl) (by rw [he']; rfl)
      have h6 := hm.evTgt e _ he (by rw [he']; rfl)
      omega
    · have h6 := hm.evTgt e _ he (by rw [he']; rfl)
      omega
  · intro loc' n' j' e
    rw [hpc] at e
    cases e
    dsimp only
    rw [upd_self]
    by_cases hj : j + 1 < n
    · left; rw [if_pos hj]; exact ⟨j + 1, rfl, .inr (Nat.le_refl _)⟩
    · right; omega
  · intro loc' n' j' e
    rw [hpc] at e
    cases e
    rfl
  · intro q x v vs ho
    rcases List.mem_cons.1 ho with ho | ho
    · simp at ho
    · exact ho
  · dsimp only; rw [upd_self]; split <;> simp
  · intro _
    dsimp only; rw [upd_self]
    split <;> exact WOk.other rfl (by simp) rfl

theorem wrRes_of_pin {pc : Pc} {m : Nat} (h : pc.wrPin = some m) : pc.wrRes = some m := by
  cases pc <;> simp_all [Pc.wrPin, Pc.wrRes]

theorem wrRes_of_ring {pc : Pc} {m : Nat} (h : pc.wrRing = some m) : pc.wrRes = some m := by
  cases pc <;> simp_all [Pc.wrRing, Pc.wrRes]

/-- A step of the scan that changes neither `writtenLocation` nor `writeInProgressLocation`. -/
theorem data_um (h : Data c s) : ∀ s' : St, s'.ring = s.ring → s'.file = s.file →
    s'.hist = s.hist → s'.written = s.written → s'.wip = s.wip → s.minRet ≤ s'.minRet →
    s'.ev = s.ev → s'.used = s.used → s'.pc = s.pc → s'.res = s.res → s'.recs = s.recs →
    s'.obs = s.obs →
    (∀ q m, q < c.procs → s.res q = some m → resOk s.um q m → resOk s'.um q m) →
    (∀ q m, q < c.procs → s.res q = some m → resOk s.um q m → s.minRes ≤ m → s'.minRes ≤ m) →
    (∀ u', s'.um = some u' → u'.ev = true → (∃ u, s.um = some u ∧ u.ev = true ∧
      ∀ q m, q < c.procs → s.res q = some m → resOk s.um q m →
        (u.pc.past = true → s.minRes ≤ m) → u'.pc.past = true → s'.minRes ≤ m) ∨
      u'.pc.past = false ∧ ∀ q m, resOk s'.um q m) →
    Data c s' := by
  intro s' e1 e2 e3 e4 e5 e6 e7 e8 e9 e10 e11 e12 h1 h2 h3
  exact
  { ring := by
      rw [e1, e3, e4]
      exact fun x a b d => h.ring x a (by omega) d
    file := by
      rw [e2, e3, e4]
      exact fun x a b d => h.file x a (by omega) d
    done := by
      rw [e2, e3, e4, e7]
      exact fun e z a b x d f g i => h.done e z a b x d (by omega) g i
    start := by
      rw [e4, e7]
      intro e r a b
      have := h.start e r a b
      omega
    used := by rw [e3, e8]; exact h.used
    full := by rw [e3, e9, e11]; exact h.full
    proc := by
      intro q hq
      have hw := h.proc q hq
      rw [e3, e4, e5, e7, e8, e9, e10]
      exact
        { wr := hw.wr
          wr7 := hw.wr7
          res := hw.res
          pin0 := by
            intro m u' a b d
            have hm := hw.res m (wrRes_of_pin a)
            rcases h3 u' b d with ⟨u, f, g, i⟩ | ⟨f, g⟩
            · obtain ⟨k, l⟩ := hw.pin0 m u a f g
              exact ⟨h1 q m hq hm k, fun n => i q m hq hm k l n⟩
            · exact ⟨g q m, fun n => by rw [f] at n; simp at n⟩
          pin1 := by
            intro m e r t a b d f
            have hm := hw.res m (wrRes_of_ring a)
            obtain ⟨k, l⟩ := hw.pin1 m e r t a b d f
            exact ⟨h2 q m hq hm l k, h1 q m hq hm l⟩
          ring := hw.ring
          rd := hw.rd
          rd1 := hw.rd1
          rd2 := hw.rd2
          rd3 := hw.rd3
          rd4 := hw.rd4 }
    obs := by rw [e12]; exact h.obs
    lost := by rw [e9]; exact h.lost }

theorem data_umStart {cl : Bool} (h : Data c s) : Data c (umStart s cl) := by
  unfold umStart
  split
  · refine data_um h _ rfl rfl rfl rfl rfl (Nat.le_refl _) rfl rfl rfl rfl rfl rfl ?_ ?_ ?_
    · intro q m _ _ _ u y e1 e2; cases e1; simp [UmPc.cx] at e2
    · intro q m _ _ _ a; exact a
    · intro u' e1 e2; cases e1; simp at e2
  · exact h

/-- A step of an eviction, or the raising of `writtenLocation`. -/
theorem data_ev (h : Data c s) (s' : St) (e1 : s'.ring = s.ring) (e2 : s'.hist = s.hist)
    (e3 : s'.used = s.used) (e4 : s'.res = s.res) (e5 : s'.recs = s.recs)
    (e6 : s'.minRes = s.minRes) (e7 : s'.minRet = s.minRet)
    (hpc : ∀ q, s'.pc q = s.pc q ∨ s'.pc q = .idle ∧ ∀ loc n j, s.pc q ≠ .fill loc n j)
    (hob : ∀ p x v vs, .read p x v vs ∈ s'.obs → .read p x v vs ∈ s.obs)
    (hwr : s.written ≤ s'.written) (hwip : s.wip ≤ s'.wip)
    (hfile : ∀ x, s.hist x ≠ [] → s.minRet ≤ x → x < s'.written → s'.file x = (s.hist x).head?)
    (hdone : ∀ e z, s'.ev = some e → e.pc.done = some z → ∀ x, s.hist x ≠ [] → s.minRet ≤ x →
      s'.written ≤ x → x < z → s'.file x = (s.hist x).head?)
    (hstart : ∀ e r, s'.ev = some e → e.pc.start = some r → r ≤ max s.minRet s'.written)
    (hp0 : ∀ q m u, q < c.procs → (s.pc q).wrPin = some m → s'.um = some u → u.ev = true →
      resOk s'.um q m ∧ (u.pc.past = true → s.minRes ≤ m))
    (hp1 : ∀ q m e r t, q < c.procs → (s.pc q).wrRing = some m → s'.ev = some e →
      e.pc = .decided r t → m < t → s.minRes ≤ m ∧ resOk s'.um q m)
    (hrg : ∀ q m, q < c.procs → (s.pc q).wrRing = some m → s'.written ≤ m ∧
      (s'.wip ≤ m ∨ ∃ e, s'.ev = some e ∧ e.pc.before q = true)) : Data c s' :=
  { ring := by
      rw [e1, e2, e7]
      exact fun x a b d => h.ring x a b (by omega)
    file := by rw [e2, e7]; exact hfile
    done := by rw [e2, e7]; exact hdone
    start := by rw [e7]; exact hstart
    used := by rw [e2, e3]; exact h.used
    full := by
      intro r a x b d
      rw [e5] at a
      rw [e2]
      rcases h.full r a x b d with f | ⟨q, j, f, g, i⟩
      · exact .inl f
      · right
        refine ⟨q, j, f, ?_, i⟩
        rcases hpc q with k | ⟨_, k⟩
        · rw [k]; exact g
        · exact absurd g (k _ _ _)
    proc := by
      intro q hq
      rcases hpc q with k | ⟨k, _⟩
      · have hw := h.proc q hq
        rw [e2, e3, e4, e6, k]
        exact
          { wr := by
              intro loc len m e
              have := hw.wr loc len m e
              omega
            wr7 := by
              intro loc vs m j e
              have := hw.wr7 loc vs m j e
              omega
            res := hw.res
            pin0 := fun m u => hp0 q m u hq
            pin1 := fun m e r t => hp1 q m e r t hq
            ring := fun m => hrg q m hq
            rd := hw.rd
            rd1 := fun loc n f buf w x0 e => by
              have := hw.rd1 loc n f buf w x0 e
              exact ⟨by omega, fun x a b d g => this.2 x a b d (by omega)⟩
            rd2 := fun loc n f buf e x a b d => hw.rd2 loc n f buf e x a b (by omega)
            rd3 := fun loc n f buf w x0 e => by
              have := hw.rd3 loc n f buf w x0 e
              exact ⟨by omega, this.2⟩
            rd4 := hw.rd4 }
      · rw [k]; exact WOk.other rfl (by simp) rfl
    obs := fun p x v vs ho => h.obs p x v vs (hob p x v vs ho)
    lost := by
      intro q
      rcases hpc q with k | ⟨k, _⟩
      · rw [k]; exact h.lost q
      · rw [k]; simp }

theorem resOk_none {q m : Nat} : resOk none q m := fun _ _ h => absurd h (by simp)

/-- What a writer is about to write to the ring is not truncated. -/
theorem ret_ring {q m : Nat} (hm : Marks c s) (hr : Ret c s) (h : Data c s) (hq : q < c.procs)
    (e : (s.pc q).wrRing = some m) : s.minRet ≤ m := by
  have h1 : ∃ loc vs j, s.pc q = .wr4 loc vs m j := by
    cases hq' : s.pc q <;> rw [hq'] at e <;> simp [Pc.wrRing] at e
    subst e; exact ⟨_, _, _, rfl⟩
  obtain ⟨loc, vs, j, h1⟩ := h1
  have h2 := ret_use hm hr hq (l := loc) (by rw [h1]; rfl)
  have h3 := ((h.proc q hq).wr loc vs.length m (by rw [h1]; rfl)).1
  omega

set_option maxHeartbeats 1000000 in
theorem data_umGo (hi : Inv c s) (hr : Ret c s) (h : Data c s) : Data c (umGo c s) := by
  have hum := data_um h
  have hm := hi.base.marks
  unfold umGo
  split
  · exact h
  · rename_i u hu
    rw [hu] at hum
    split
    all_goals (rename_i hpc)
    · refine hum _ rfl rfl rfl rfl rfl (Nat.le_refl _) rfl rfl rfl rfl rfl rfl ?_ ?_ ?_
      · intro q m _ _ _ u' y e1 e2 e3; cases e1; simp [UmPc.resSeen] at e3
      · intro q m _ _ _ a; exact a
      · intro u' e1 e2; cases e1
        exact .inr ⟨rfl, fun q m u' y e1 e2 e3 => by cases e1; simp [UmPc.resSeen] at e3⟩
    · rename_i i x b a
      split
      · refine hum _ rfl rfl rfl rfl rfl (Nat.le_refl _) rfl rfl rfl rfl rfl rfl ?_ ?_ ?_
        · intro q m hq hres h1 u' y e1 e2 e3
          cases e1
          simp only [UmPc.cx, Option.some.injEq] at e2
          simp only [UmPc.resSeen, decide_eq_true_eq] at e3
          subst e2
          exact minOpt_at hres (Nat.le_refl _) e3
            (fun hlt => h1 u x rfl (by rw [hpc]; rfl) (by rw [hpc]; simp [UmPc.resSeen]; omega))
        · intro q m _ _ _ a; exact a
        · intro u' e1 e2; cases e1
          exact .inl ⟨u, rfl, e2, fun q m _ _ _ _ e => by simp [UmPc.past] at e⟩
      · refine hum _ rfl rfl rfl rfl rfl (Nat.le_refl _) rfl rfl rfl rfl rfl rfl ?_ ?_ ?_
        · intro q m hq hres h1 u' y e1 e2 e3
          cases e1
          exact h1 u y rfl (by rw [hpc]; exact e2) (by rw [hpc]; simp [UmPc.resSeen]; omega)
        · intro q m _ _ _ a; exact a
        · intro u' e1 e2; cases e1
          exact .inl ⟨u, rfl, e2, fun q m _ _ _ _ e => by simp [UmPc.past] at e⟩
    · rename_i i x b a
      refine hum _ rfl rfl rfl rfl rfl (Nat.le_refl _) rfl rfl rfl rfl rfl rfl ?_ ?_ ?_
      · intro q m hq hres h1 u' y e1 e2 e3
        cases e1
        exact h1 u y rfl (by rw [hpc]; exact e2) (by rw [hpc]; exact e3)
      · intro q m _ _ _ a; exact a
      · intro u' e1 e2; cases e1
        exact .inl ⟨u, rfl, e2, fun q m _ _ _ _ e => by simp [UmPc.past] at e⟩
    · rename_i i x b a
      refine hum _ rfl rfl rfl rfl rfl (Nat.le_refl _) rfl rfl rfl rfl rfl rfl ?_ ?_ ?_
      · intro q m hq hres h1 u' y e1 e2 e3
        cases e1
        simp only [UmPc.resSeen, decide_eq_true_eq] at e3
        exact h1 u y rfl (by rw [hpc]; exact e2) (by rw [hpc]; simp [UmPc.resSeen]; omega)
      · intro q m _ _ _ a; exact a
      · intro u' e1 e2; cases e1
        exact .inl ⟨u, rfl, e2, fun q m _ _ _ _ e => by simp [UmPc.past] at e⟩
    · rename_i x b a
      refine hum _ rfl rfl rfl rfl rfl (Nat.le_refl _) rfl rfl rfl rfl rfl rfl ?_ ?_ ?_
      · intro q m hq hres h1 u' y e1 e2 e3
        cases e1
        simp [UmPc.cx] at e2
      · intro q m _ _ h1 _
        exact h1 u x rfl (by rw [hpc]; rfl) (by rw [hpc]; rfl)
      · intro u' e1 e2; cases e1
        exact .inl ⟨u, rfl, e2, fun q m _ _ h1 _ _ =>
          h1 u x rfl (by rw [hpc]; rfl) (by rw [hpc]; rfl)⟩
    · rename_i b a
      refine hum _ rfl rfl rfl rfl rfl (Nat.le_max_left _ _) rfl rfl rfl rfl rfl rfl ?_ ?_ ?_
      · intro q m hq hres h1 u' y e1 e2 e3
        cases e1
        simp [UmPc.cx] at e2
      · intro q m _ _ _ a; exact a
      · intro u' e1 e2; cases e1
        exact .inl ⟨u, rfl, e2, fun q m _ _ _ h1 _ => h1 (by rw [hpc]; rfl)⟩
    · rename_i b
      refine hum _ rfl rfl rfl rfl rfl (Nat.le_refl _) rfl rfl rfl rfl rfl rfl ?_ ?_ ?_
      · intro q m hq hres h1 u' y e1 e2 e3
        cases e1
        simp [UmPc.cx] at e2
      · intro q m _ _ _ a; exact a
      · intro u' e1 e2; cases e1
        exact .inl ⟨u, rfl, e2, fun q m _ _ _ h1 _ => h1 (by rw [hpc]; rfl)⟩
    · refine hum _ rfl rfl rfl rfl rfl (Nat.le_refl _) rfl rfl rfl rfl rfl rfl ?_ ?_ ?_
      · intro q m hq hres h1 u' y e1 e2 e3
        cases e1
        split at e2 <;> simp [UmPc.cx] at e2
      · intro q m _ _ _ a; exact a
      · intro u' e1 e2; cases e1
        exact .inl ⟨u, rfl, e2, fun q m _ _ _ h1 _ => h1 (by rw [hpc]; rfl)⟩
    · have hue : u.ev = false := hm.umTail u hu (.inl hpc)
      split
      · rename_i hc
        refine data_ev h _ rfl rfl rfl rfl rfl rfl rfl (fun _ => .inl rfl) (fun _ _ _ _ a => a)
          (Nat.le_refl _) (by dsimp only; omega) h.file h.done h.start ?_ ?_ ?_
        · intro q m u' _ _ e1 e2; cases e1; rw [hue] at e2; simp at e2
        · intro q m e r t a b d f g
          refine ⟨((h.proc q a).pin1 m e r t b d f g).1, ?_⟩
          intro u' y e1 e2
          cases e1
          simp [UmPc.cx] at e2
        · intro q m a b
          exact ⟨((h.proc q a).ring m b).1, .inl (ret_ring hm hr h a b)⟩
      · refine hum _ rfl rfl rfl rfl rfl (Nat.le_refl _) rfl rfl rfl rfl rfl rfl ?_ ?_ ?_
        · intro q m hq hres h1 u' y e1 e2 e3
          cases e1
          simp [UmPc.cx] at e2
        · intro q m _ _ _ a; exact a
        · intro u' e1 e2; cases e1
          rw [hue] at e2; simp at e2
    · have hue : u.ev = false := hm.umTail u hu (.inr (.inr hpc))
      obtain ⟨hev, hwip⟩ := hm.umRaise u hu hpc
      have h1 := hm.wWip
      refine data_ev h _ rfl rfl rfl rfl rfl rfl rfl (fun _ => .inl rfl) (fun _ _ _ _ a => a)
          (by dsimp only; omega) (Nat.le_refl _) ?_ ?_ ?_ ?_ ?_ ?_
      · intro x _ a b; dsimp only at b; omega
      · intro e z a; dsimp only at a; rw [hev] at a; simp at a
      · intro e z a; dsimp only at a; rw [hev] at a; simp at a
      · intro q m u' _ _ e1 e2; cases e1; rw [hue] at e2; simp at e2
      · intro q m e r t a b d; dsimp only at d; rw [hev] at d; simp at d
      · intro q m a b
        have h2 := ret_ring hm hr h a b
        exact ⟨h2, .inl (by dsimp only; omega)⟩
    · refine hum _ rfl rfl rfl rfl rfl (Nat.le_refl _) rfl rfl rfl rfl rfl rfl ?_ ?_ ?_
      · intro q m hq hres h1 u' y e1 e2 e3
        simp at e1
      · intro q m _ _ _ a; exact a
      · intro u' e1; simp at e1
    · exact h

theorem evDone_pc {e : Ev} (hs : Sums c s) (he : s.ev = some e) : ∀ q,
    (evDone s e).pc q = s.pc q ∨
      (evDone s e).pc q = .idle ∧ ∀ loc n j, s.pc q ≠ .fill loc n j := by
  intro q
  unfold evDone
  dsimp only
  by_cases e1 : q = e.owner
  · subst e1
    rw [upd_self]
    refine .inr ⟨rfl, ?_⟩
    intro loc n j h
    rcases hs.owner e he with h1 | ⟨t, k, h1⟩ <;> (rw [h1] at h; simp at h)
  · rw [upd_ne e1]; exact .inl rfl

set_option maxHeartbeats 1000000 in
theorem data_evGo (hi : Inv c s) (hr : Ret c s) (h : Data c s) : Data c (evGo c s) := by
  have hm := hi.base.marks
  have hww := hm.wWip
  unfold evGo
  split
  · exact h
  · rename_i e he
    split
    · rename_i hpc
      split
      · rename_i hum
        refine data_ev h _ rfl rfl rfl rfl rfl rfl rfl (fun _ => .inl rfl) (fun _ _ _ _ a => a)
          (Nat.le_refl _) (Nat.le_refl _) h.file ?_ ?_ ?_ ?_ ?_
        · intro e' z a b; cases a; simp [EvPc.done] at b
        · intro e' z a b; cases a; simp [EvPc.start] at b
        · intro q m u' _ _ e1 e2
          cases e1
          exact ⟨fun u' y e1 e2 => by cases e1; simp [UmPc.cx] at e2, fun a => by simp [UmPc.past] at a⟩
        · intro q m e' r t _ _ a b; cases a; simp at b
        · intro q m a b
          have h1 := (h.proc q a).ring m b
          refine ⟨h1.1, .inl ?_⟩
          rcases h1.2 with h2 | ⟨e', h2, h3⟩
          · exact h2
          · rw [he] at h2; cases h2; rw [hpc] at h3; simp [EvPc.before] at h3
      · exact h
    · rename_i hpc
      have hnob : ∀ q m, q < c.procs → (s.pc q).wrRing = some m → s.written ≤ m ∧ s.wip ≤ m := by
        intro q m a b
        have h1 := (h.proc q a).ring m b
        refine ⟨h1.1, ?_⟩
        rcases h1.2 with h2 | ⟨e', h2, h3⟩
        · exact h2
        · rw [he] at h2; cases h2; rw [hpc] at h3; simp [EvPc.before] at h3
      split
      · rename_i cl hum
        split
        · exact h
        · split
          · split
            · rename_i hlt
              refine data_ev h _ rfl rfl rfl rfl rfl rfl rfl (fun _ => .inl rfl)
                (fun _ _ _ _ a => a) (Nat.le_refl _) (by dsimp only; omega) h.file ?_ ?_ ?_ ?_ ?_
              · intro e' z a b; cases a; simp [EvPc.done] at b
              · intro e' z a b; cases a; simp [EvPc.start] at b
              · intro q m u' a b e1 e2; exact (h.proc q a).pin0 m u' b e1 e2
              · intro q m e' r t _ _ a b; cases a; simp at b
              · intro q m a b
                exact ⟨(hnob q m a b).1, .inl (ret_ring hm hr h a b)⟩
            · refine data_ev h _ rfl rfl rfl rfl rfl rfl rfl (evDone_pc hi.sums he)
                (fun _ _ _ _ a => a) (Nat.le_refl _) (Nat.le_refl _) h.file ?_ ?_ ?_ ?_ ?_
              · intro e' z a b; simp [evDone] at a
              · intro e' z a b; simp [evDone] at a
              · intro q m u' a b e1 e2; simp at e1
              · intro q m e' r t _ _ a b; simp [evDone] at a
              · intro q m a b
                exact ⟨(hnob q m a b).1, .inl (hnob q m a b).2⟩
          · rename_i hnt
            have h1 := hm.evNoTgt e he (by rw [hpc]; rfl) (by rw [hpc]; simp)
            have h2 := hm.evTarget e he
            refine data_ev h _ rfl rfl rfl rfl rfl rfl rfl (fun _ => .inl rfl)
              (fun _ _ _ _ a => a) (Nat.le_refl _) (by dsimp only; omega) h.file ?_ ?_ ?_ ?_ ?_
            · intro e' z a b; cases a; simp [EvPc.done] at b
            · intro e' z a b; cases a; simp [EvPc.start] at b; dsimp only; omega
            · intro q m u' a b e1 e2; simp at e1
            · intro q m e' r t a b d f g
              have h3 : (s.pc q).wrPin = some m := by
                cases hq' : s.pc q <;> rw [hq'] at b <;> simp [Pc.wrRing] at b
                subst b; rfl
              have h4 := (h.proc q a).pin0 m _ h3 hum rfl
              exact ⟨h4.2 rfl, resOk_none⟩
            · intro q m a b
              exact ⟨(hnob q m a b).1, .inr ⟨_, rfl, rfl⟩⟩
      · exact h
    · rename_i hpc
      have h1 := hm.evEarly e he hpc
      have hnob : ∀ q m, q < c.procs → (s.pc q).wrRing = some m → s.written ≤ m ∧ s.wip ≤ m := by
        intro q m a b
        have h1 := (h.proc q a).ring m b
        refine ⟨h1.1, ?_⟩
        rcases h1.2 with h2 | ⟨e', h2, h3⟩
        · exact h2
        · rw [he] at h2; cases h2; rw [hpc] at h3; simp [EvPc.before] at h3
      refine data_ev h _ rfl rfl rfl rfl rfl rfl rfl (evDone_pc hi.sums he)
        (fun _ _ _ _ a => a) (by dsimp only; omega) (Nat.le_refl _) ?_ ?_ ?_ ?_ ?_ ?_
      · intro x _ a b; dsimp only at b; omega
      · intro e' z a b; simp [evDone] at a
      · intro e' z a b; simp [evDone] at a
      · intro q m u' a b e1 e2; simp at e1
      · intro q m e' r t _ _ a b; simp [evDone] at a
      · intro q m a b
        have := hnob q m a b
        refine ⟨?_, .inl this.2⟩
        dsimp only; omega
    · rename_i r t hpc
      have h1 := hm.evTgt e t he (by rw [hpc]; rfl)
      split
      · refine data_ev h _ rfl rfl rfl rfl rfl rfl rfl (fun _ => .inl rfl)
          (fun _ _ _ _ a => a) (Nat.le_refl _) (Nat.le_refl _) h.file ?_ ?_ ?_ ?_ ?_
        · intro e' z a b; cases a; simp [EvPc.done] at b
        · intro e' z a b; cases a; exact h.start e z he (by rw [hpc]; exact b)
        · intro q m u' a b e1 e2; exact (h.proc q a).pin0 m u' b e1 e2
        · intro q m e' r t _ _ a b; cases a; simp at b
        · intro q m a b
          exact ⟨((h.proc q a).ring m b).1, .inr ⟨_, rfl, by simp [EvPc.before]⟩⟩
      · rename_i hge
        refine data_ev h _ rfl rfl rfl rfl rfl rfl rfl (fun _ => .inl rfl)
          (fun _ _ _ _ a => a) (Nat.le_refl _) (Nat.le_refl _) h.file ?_ ?_ ?_ ?_ ?_
        · intro e' z a b x _ d f g
          cases a
          simp [EvPc.done] at b
          have := h.start e r he (by rw [hpc]; rfl)
          dsimp only at f
          omega
        · intro e' z a b; cases a; simp [EvPc.start] at b
        · intro q m u' a b e1 e2; exact (h.proc q a).pin0 m u' b e1 e2
        · intro q m e' r t _ _ a b; cases a; simp at b
        · intro q m a b
          refine ⟨((h.proc q a).ring m b).1, .inl ?_⟩
          dsimp only
          by_cases hlt : m < t
          · have := ((h.proc q a).pin1 m e r t b he hpc hlt).1
            omega
          · omega
    · rename_i i r t hpc
      have h1 := hm.evTgt e t he (by rw [hpc]; rfl)
      split
      · split
        · rename_i hlt hbel
          refine data_ev h _ rfl rfl rfl rfl rfl rfl rfl (fun _ => .inl rfl)
            (fun _ _ _ _ a => a) (Nat.le_refl _) (Nat.le_refl _) h.file ?_ ?_ ?_ ?_ ?_
          · intro e' z a b; cases a; simp [EvPc.done] at b
          · intro e' z a b; cases a; exact h.start e z he (by rw [hpc]; exact b)
          · intro q m u' a b e1 e2; exact (h.proc q a).pin0 m u' b e1 e2
          · intro q m e' r t _ _ a b; cases a; simp at b
          · intro q m a b
            have h2 := (h.proc q a).ring m b
            refine ⟨h2.1, ?_⟩
            rcases h2.2 with h3 | ⟨e', h3, h4⟩
            · exact .inl h3
            · rw [he] at h3; cases h3
              rw [hpc] at h4
              simp [EvPc.before] at h4
              by_cases e2 : i = q
              · left
                subst e2
                have h5 := (h.proc i a).res m (wrRes_of_ring b)
                rw [h5] at hbel
                simp [below] at hbel
                dsimp only; omega
              · exact .inr ⟨_, rfl, by simp [EvPc.before]; omega⟩
        · exact h
      · rename_i hge
        refine data_ev h _ rfl rfl rfl rfl rfl rfl rfl (fun _ => .inl rfl)
          (fun _ _ _ _ a => a) (Nat.le_refl _) (Nat.le_refl _) h.file ?_ ?_ ?_ ?_ ?_
        · intro e' z a b x _ d f g
          cases a
          simp [EvPc.done] at b
          have := h.start e r he (by rw [hpc]; rfl)
          dsimp only at f
          omega
        · intro e' z a b; cases a; simp [EvPc.start] at b
        · intro q m u' a b e1 e2; exact (h.proc q a).pin0 m u' b e1 e2
        · intro q m e' r t _ _ a b; cases a; simp at b
        · intro q m a b
          have h2 := (h.proc q a).ring m b
          refine ⟨h2.1, .inl ?_⟩
          rcases h2.2 with h3 | ⟨e', h3, h4⟩
          · exact h3
          · rw [he] at h3; cases h3
            rw [hpc] at h4
            simp [EvPc.before] at h4
            omega
    · rename_i x t hpc
      have h1 := hm.evTgt e t he (by rw [hpc]; rfl)
      have h2 := hm.evPos e x t he (by rw [hpc]; rfl) (by rw [hpc]; rfl)
      have hnob : ∀ q m, q < c.procs → (s.pc q).wrRing = some m → s.written ≤ m ∧ s.wip ≤ m := by
        intro q m a b
        have h1 := (h.proc q a).ring m b
        refine ⟨h1.1, ?_⟩
        rcases h1.2 with h2 | ⟨e', h2, h3⟩
        · exact h2
        · rw [he] at h2; cases h2; rw [hpc] at h3; simp [EvPc.before] at h3
      split
      · refine data_ev h _ rfl rfl rfl rfl rfl rfl rfl (fun _ => .inl rfl)
          ?_ (Nat.le_refl _) (Nat.le_refl _) ?_ ?_ ?_ ?_ ?_ ?_
        · intro p y v vs ho
          rcases List.mem_cons.1 ho with ho | ho
          · simp at ho
          · exact ho
        · intro y a b d
          dsimp only at d ⊢
          rw [upd_ne (by omega)]
          exact h.file y a b d
        · intro e' z a b y d f g i
          cases a
          simp [EvPc.done] at b
          subst b
          dsimp only at g ⊢
          by_cases e1 : y = x
          · subst e1; rw [upd_self]; exact h.ring y d f g
          · rw [upd_ne e1]
            exact h.done e x he (by rw [hpc]; rfl) y d f g (by omega)
        · intro e' z a b; cases a; simp [EvPc.start] at b
        · intro q m u' a b e1 e2; exact (h.proc q a).pin0 m u' b e1 e2
        · intro q m e' r t _ _ a b; cases a; simp at b
        · intro q m a b
          exact ⟨(hnob q m a b).1, .inl (hnob q m a b).2⟩
      · refine data_ev h _ rfl rfl rfl rfl rfl rfl rfl (fun _ => .inl rfl)
          (fun _ _ _ _ a => a) (Nat.le_refl _) (Nat.le_refl _) h.file ?_ ?_ ?_ ?_ ?_
        · intro e' z a b y d f g i
          cases a
          simp [EvPc.done] at b
          subst b
          exact h.done e x he (by rw [hpc]; rfl) y d f g (by omega)
        · intro e' z a b; cases a; simp [EvPc.start] at b
        · intro q m u' a b e1 e2; exact (h.proc q a).pin0 m u' b e1 e2
        · intro q m e' r t _ _ a b; cases a; simp at b
        · intro q m a b
          exact ⟨(hnob q m a b).1, .inl (hnob q m a b).2⟩
    · rename_i t hpc
      have h1 := hm.evTgt e t he (by rw [hpc]; rfl)
      split
      · rename_i hum
        refine data_ev h _ rfl rfl rfl rfl rfl rfl rfl (evDone_pc hi.sums he)
          (fun _ _ _ _ a => a) (by dsimp only; omega) (Nat.le_refl _) ?_ ?_ ?_ ?_ ?_ ?_
        · intro y a b d
          dsimp only at d
          by_cases e1 : y < s.written
          · exact h.file y a b e1
          · exact h.done e t he (by rw [hpc]; rfl) y a b (by omega) d
        · intro e' z a b; simp [evDone] at a
        · intro e' z a b; simp [evDone] at a
        · intro q m u' a b e1 e2; simp [evDone, hum] at e1
        · intro q m e' r t _ _ a b; simp [evDone] at a
        · intro q m a b
          have h3 := (h.proc q a).ring m b
          have h4 : s.wip ≤ m := by
            rcases h3.2 with h2 | ⟨e', h2, h3⟩
            · exact h2
            · rw [he] at h2; cases h2; rw [hpc] at h3; simp [EvPc.before] at h3
          refine ⟨?_, .inl h4⟩
          dsimp only; omega
      · exact h

theorem data_step {a : Act} (hi : Inv c s) (hr : Ret c s) (h : Data c s) :
    Data c (step c s a) := by
  unfold step
  split
  · rename_i hp
    cases a <;> simp only [Act.procs, List.all_cons, List.all_nil, Bool.and_true, Bool.and_eq_true,
      decide_eq_true_eq] at hp <;> dsimp only [act]
    all_goals first
      | exact data_go hi hr h hp
      | exact data_reserve h
      | exact data_giveUp h
      | exact data_releaseSize h
      | exact data_bg h
      | exact data_get h
      | exact data_put hi h
      | exact data_release h
      | exact data_queue h
      | exact data_steal h
      | exact data_hand h
      | exact data_wake h
      | exact data_free h
      | exact data_snap h
      | exact data_drop h
      | exact data_reset h
      | exact data_clearMy h
      | exact data_write h
      | exact data_read h
      | exact data_umStart h
      | exact data_umGo hi hr h
      | exact data_evGo hi hr h
      | exact data_lose hi.base.marks h
  · exact h

theorem data_init (n : Nat) : Data c (init n) := by
  constructor <;> simp [init]
  intro q _
  exact WOk.other rfl (by simp) rfl

end Verif.UndoLog
