import Verif.UndoLog.StepSums

/-!
# Records and copies, in all runs
-/

namespace Verif.UndoLog

variable {c : Cfg} {s s' : St}

/-- Records lie inside the ring and apart; everything below `writtenLocation` that may still be
needed has been copied. -/
structure Log (c : Cfg) (s : St) : Prop where
  recs : ∀ r, r ∈ s.recs → 0 < r.n ∧ r.loc % c.size + r.n ≤ c.size
  disj : s.recs.Pairwise (fun a b => b.loc + b.n ≤ a.loc)
  cop : ∀ y, s.minRet ≤ y → y < s.written → .copied y ∈ s.obs
  copEv : ∀ e x, s.ev = some e → e.pc.pos = some x → ∀ y, s.minRet ≤ y → y < x →
    .copied y ∈ s.obs
  copWip : ∀ y, .copied y ∈ s.obs → y < s.wip
  saved : ∀ x r pre, (.put x r :: pre) <:+ s.obs → ∀ y, y < x → y % c.size = x % c.size →
    y < r ∨ .copied y ∈ pre
  once : ∀ x r pre, (.put x r :: pre) <:+ s.obs → .copied x ∉ pre

/-- All that holds in all runs. -/
structure Inv (c : Cfg) (s : St) : Prop where
  base : Base c s
  sums : Sums c s
  log : Log c s
  noPanic : ∀ p, s.pc p ≠ .panic

theorem used_fits (h : Sums c s) : s.used ≤ s.written + c.size := by
  have := h.grant _ (Nat.le_refl _)
  omega

/-- A crossing of the end of the ring. -/
theorem crosses {C l n : Nat} (hn : 0 < n) (hC : n < C) (h : (l + n) % C ≤ l % C) :
    C ≤ l % C + n := by
  apply Classical.byContradiction
  intro hc
  have : (l + n) % C = l % C + n := by
    rw [Nat.add_mod, Nat.mod_eq_of_lt hC, Nat.mod_eq_of_lt (by omega)]
  omega

theorem not_crosses {C l n : Nat} (hn : 0 < n) (hC : n < C) (h : l % C < (l + n) % C) :
    l % C + n ≤ C := by
  apply Classical.byContradiction
  intro hc
  have h1 : l % C < C := Nat.mod_lt _ (by omega)
  have : (l + n) % C = l % C + n - C := by
    rw [Nat.add_mod, Nat.mod_eq_of_lt hC, Nat.mod_eq_sub_mod (by omega),
      Nat.mod_eq_of_lt (by omega)]
  omega

/-- The second attempt does not cross the end of the ring (comment at
`src/transam/undo.c:2179-2184`). -/
theorem again_fits {p n l : Nat} (hb : Base c s) (hs : Sums c s) (hp : p < c.procs)
    (hpc : s.pc p = .again n l) : s.used % c.size < (s.used + n) % c.size := by
  have hpp := hb.proc p
  rw [hpc] at hpp
  obtain ⟨h1, h2⟩ := hpp.again n l rfl
  have h3 := hpp.need n rfl
  obtain ⟨h4, h5⟩ := hpp.want n rfl
  obtain ⟨_, hpin⟩ := hb.pin p l (by rw [hpc]; rfl)
  have h6 := hpin.wip
  have h7 := hb.marks.wWip
  have h8 := hs.grant _ (Nat.le_refl _)
  have h9 := sumTo_ge (f := cnt s.sz s.pc (s.written + c.size)) (p := p) c.procs hp
  rw [cnt_of_none (by rw [hpc]; rfl)] at h9
  have h10 : s.used + n ≤ l + c.size := by omega
  apply Classical.byContradiction
  intro hc
  have h11 := crosses h4 h5 h2
  have h12 := crosses h4 h5 (Nat.le_of_not_lt hc)
  have h13 := Nat.div_add_mod l c.size
  have h14 := Nat.div_add_mod s.used c.size
  have h15 : l / c.size < s.used / c.size := by
    have h16 : (l / c.size + 1) * c.size ≤ s.used := by
      rw [Nat.add_mul, Nat.mul_comm, Nat.one_mul]; omega
    exact (Nat.le_div_iff_mul_le (by omega)).2 h16
  have h17 : c.size * (l / c.size + 1) ≤ c.size * (s.used / c.size) := Nat.mul_le_mul_left _ h15
  rw [Nat.mul_add] at h17
  have h18 : l % c.size < c.size := Nat.mod_lt _ (by omega)
  omega

/-- A step that leaves the log alone. -/
theorem log_same (h : Log c s) (e1 : s'.recs = s.recs) (e2 : s'.minRet = s.minRet)
    (e3 : s'.written = s.written) (e4 : s'.wip = s.wip) (e5 : s'.obs = s.obs)
    (e6 : s'.ev = s.ev) : Log c s' :=
  { recs := by rw [e1]; exact h.recs
    disj := by rw [e1]; exact h.disj
    cop := by rw [e2, e3, e5]; exact h.cop
    copEv := by rw [e2, e6, e5]; exact h.copEv
    copWip := by rw [e5, e4]; exact h.copWip
    saved := by rw [e5]; exact h.saved
    once := by rw [e5]; exact h.once }

/-- An observation that is not about the log. -/
theorem log_obs {os : List Ob} (h : Log c s) (e1 : s'.recs = s.recs) (e2 : s'.minRet = s.minRet)
    (e3 : s'.written = s.written) (e4 : s'.wip = s.wip) (e5 : s'.obs = os ++ s.obs)
    (e6 : s'.ev = s.ev) (ho : ∀ o, o ∈ os → (∀ x r, o ≠ .put x r) ∧ ∀ x, o ≠ .copied x) :
    Log c s' := by
  have hsuf : ∀ x r pre, (.put x r :: pre) <:+ os ++ s.obs → (.put x r :: pre) <:+ s.obs := by
    clear e5
    intro x r pre
    induction os with
    | nil => exact id
    | cons o os ih =>
      intro hs
      rw [List.cons_append, List.suffix_cons_iff] at hs
      rcases hs with hs | hs
      · cases hs
        exact absurd rfl ((ho _ (.head _)).1 x r)
      · exact ih (fun o h => ho o (.tail _ h)) hs
  exact
    { recs := by rw [e1]; exact h.recs
      disj := by rw [e1]; exact h.disj
      cop := by
        rw [e2, e3, e5]
        exact fun y h1 h2 => List.mem_append_right _ (h.cop y h1 h2)
      copEv := by
        rw [e2, e6, e5]
        exact fun e x h1 h2 y h3 h4 => List.mem_append_right _ (h.copEv e x h1 h2 y h3 h4)
      copWip := by
        rw [e5, e4]
        intro y hy
        rcases List.mem_append.1 hy with hy | hy
        · exact absurd rfl ((ho _ hy).2 y)
        · exact h.copWip y hy
      saved := by rw [e5]; exact fun x r pre hs => h.saved x r pre (hsuf x r pre hs)
      once := by rw [e5]; exact fun x r pre hs => h.once x r pre (hsuf x r pre hs) }

/-- `minProcRetainLocation`, `writeInProgressLocation`, `writtenLocation` increase. -/
theorem log_up (h : Log c s) (e1 : s'.recs = s.recs) (e2 : s.minRet ≤ s'.minRet)
    (e3 : ∀ y, s'.minRet ≤ y → y < s'.written →
      y < s.written ∨ ∃ e x, s.ev = some e ∧ e.pc.pos = some x ∧ y < x)
    (e4 : s.wip ≤ s'.wip) (e5 : s'.obs = s.obs)
    (e6 : ∀ e' x, s'.ev = some e' → e'.pc.pos = some x → ∀ y, s'.minRet ≤ y → y < x →
      y < s.written ∨ ∃ e x, s.ev = some e ∧ e.pc.pos = some x ∧ y < x) : Log c s' := by
  have key : ∀ y, s'.minRet ≤ y →
      (y < s.written ∨ ∃ e x, s.ev = some e ∧ e.pc.pos = some x ∧ y < x) → .copied y ∈ s.obs := by
    intro y h1 h2
    rcases h2 with h2 | ⟨e, x, h2, h3, h4⟩
    · exact h.cop y (by omega) h2
    · exact h.copEv e x h2 h3 y (by omega) h4
  exact
    { recs := by rw [e1]; exact h.recs
      disj := by rw [e1]; exact h.disj
      cop := fun y h1 h2 => by rw [e5]; exact key y h1 (e3 y h1 h2)
      copEv := fun e x h1 h2 y h3 h4 => by rw [e5]; exact key y h3 (e6 e x h1 h2 y h3 h4)
      copWip := fun y hy => by
        rw [e5] at hy
        exact Nat.lt_of_lt_of_le (h.copWip y hy) e4
      saved := by rw [e5]; exact h.saved
      once := by rw [e5]; exact h.once }

theorem log_attempt {p n : Nat} {r : Pc} (hb : Base c s) (h : Log c s) (hn : 0 < n)
    (hC : n < c.size) : Log c (attempt c s p n r) := by
  unfold attempt
  split
  · exact log_same h rfl rfl rfl rfl rfl rfl
  · split
    · rename_i hc
      exact
        { recs := by
            intro r' hr
            rcases List.mem_cons.1 hr with rfl | hr
            · exact ⟨hn, not_crosses hn hC hc⟩
            · exact h.recs r' hr
          disj := List.pairwise_cons.2 ⟨fun r' hr => hb.recs r' hr, h.disj⟩
          cop := h.cop
          copEv := h.copEv
          copWip := h.copWip
          saved := h.saved
          once := h.once }
    · exact log_same h rfl rfl rfl rfl rfl rfl

theorem log_put {p v : Nat} (hb : Base c s) (hs : Sums c s) (h : Log c s) :
    Log c (put c s p v) := by
  unfold put
  split
  · rename_i loc n j hpc
    have hpp := hb.proc p
    rw [hpc] at hpp
    have h1 := hpp.fill loc n j rfl
    have h2 := hb.recs _ (hpp.made _ rfl)
    dsimp only at h2
    obtain ⟨_, hpin⟩ := hb.pin p loc (by rw [hpc]; rfl)
    have h3 := hpin.wip
    have h4 := used_fits hs
    exact
      { recs := h.recs
        disj := h.disj
        cop := fun y a b => List.mem_cons_of_mem _ (h.cop y a b)
        copEv := fun e x a b y d f => List.mem_cons_of_mem _ (h.copEv e x a b y d f)
        copWip := by
          intro y hy
          rcases List.mem_cons.1 hy with hy | hy
          · exact absurd hy (by simp)
          · exact h.copWip y hy
        saved := by
          intro x r pre hsuf y hy hm
          rcases List.suffix_cons_iff.1 hsuf with hsuf | hsuf
          · cases hsuf
            by_cases hr : s.minRet ≤ y
            · right
              refine h.cop y hr ?_
              have h5 : y + c.size ≤ loc + j := by
                have h6 := Nat.div_add_mod y c.size
                have h7 := Nat.div_add_mod (loc + j) c.size
                have h8 : y / c.size < (loc + j) / c.size := by
                  apply Classical.byContradiction
                  intro hc
                  have := Nat.mul_le_mul_left c.size (Nat.le_of_not_lt hc)
                  omega
                have h9 := Nat.mul_le_mul_left c.size h8
                rw [Nat.succ_eq_add_one, Nat.mul_add] at h9
                omega
              omega
            · left; omega
          · exact h.saved x r pre hsuf y hy hm
        once := by
          intro x r pre hsuf
          rcases List.suffix_cons_iff.1 hsuf with hsuf | hsuf
          · cases hsuf
            intro hc
            have := h.copWip _ hc
            omega
          · exact h.once x r pre hsuf }
  · exact h

theorem mem_reads {p loc k : Nat} {f buf : Nat → Nat} {o : Ob} :
    o ∈ reads s p loc f buf k → (∀ x r, o ≠ .put x r) ∧ ∀ x, o ≠ .copied x := by
  induction k with
  | zero => intro h; simp [reads] at h
  | succ k ih =>
    intro h
    rcases List.mem_cons.1 h with rfl | h
    · simp
    · exact ih h

theorem log_go {p : Nat} (hb : Base c s) (h : Log c s) : Log c (go c s p) := by
  have hpp := hb.proc p
  unfold go
  split
  all_goals try exact h
  all_goals rename_i hpc; rw [hpc] at hpp
  all_goals first
    | exact log_attempt hb h (hpp.want _ rfl).1 (hpp.want _ rfl).2
    | skip
  all_goals (try split)
  all_goals first
    | exact h
    | exact log_same h rfl rfl rfl rfl rfl rfl
    | exact log_obs (os := [_]) h rfl rfl rfl rfl rfl rfl (by simp)
    | exact log_obs h rfl rfl rfl rfl rfl rfl (fun o ho => mem_reads ho)
    | exact
        { recs := h.recs
          disj := h.disj
          cop := h.cop
          copEv := fun e x he => by cases he; simp [EvPc.pos]
          copWip := h.copWip
          saved := h.saved
          once := h.once }

theorem log_umGo (hb : Base c s) (h : Log c s) : Log c (umGo c s) := by
  have hr := hb.marks.umRaise
  have hw := hb.marks.wWip
  unfold umGo
  split
  · exact h
  · rename_i u hu
    split <;> (try split) <;>
      first
      | exact h
      | exact log_same h rfl rfl rfl rfl rfl rfl
      | (refine log_up h rfl ?_ ?_ ?_ rfl ?_
         · dsimp only; omega
         · dsimp only; intro y h1 h2; first | (left; omega) | omega
         · dsimp only; first | omega
         · dsimp only; exact fun e' x a b y d f => .inr ⟨e', x, a, b, f⟩)

theorem log_evGo (hb : Base c s) (h : Log c s) : Log c (evGo c s) := by
  have hm := hb.marks
  have hw := hm.wWip
  unfold evGo
  split
  · exact h
  · rename_i e he
    split
    · split
      · refine log_up h rfl (Nat.le_refl _) (fun y _ h2 => .inl h2) (Nat.le_refl _) rfl ?_
        intro e' x h1 h2; cases h1; simp [EvPc.pos] at h2
      · exact h
    · rename_i hpc
      have h3 := hm.evNoTgt e he (by rw [hpc]; rfl) (by rw [hpc]; simp)
      split
      · split
        · exact h
        · split
          · split
            · refine log_up h rfl (Nat.le_refl _) (fun y _ h2 => .inl h2) ?_ rfl ?_
              · dsimp only; omega
              · intro e' x h1 h2; cases h1; simp [EvPc.pos] at h2
            · refine log_up h rfl (Nat.le_refl _) (fun y _ h2 => .inl h2) (Nat.le_refl _) rfl ?_
              intro e' x h1 h2; exact absurd h1 (by simp [evDone])
          · have := hm.evTarget e he
            refine log_up h rfl (Nat.le_refl _) (fun y _ h2 => .inl h2) ?_ rfl ?_
            · dsimp only; omega
            · intro e' x h1 h2 y h4 h5
              cases h1
              simp only [EvPc.pos, Option.some.injEq] at h2
              dsimp only at h4
              left; omega
      · exact h
    · rename_i hpc
      have h3 := hm.evEarly e he hpc
      refine log_up h rfl (Nat.le_refl _) ?_ (Nat.le_refl _) rfl ?_
      · intro y h1 h2; dsimp only [evDone] at h1 h2; omega
      · intro e' x h1 h2; exact absurd h1 (by simp [evDone])
    · rename_i r t hpc
      split <;>
      · refine log_up h rfl (Nat.le_refl _) (fun y _ h2 => .inl h2) (Nat.le_refl _) rfl ?_
        intro e' x h1 h2 y h4 h5
        cases h1
        simp only [EvPc.pos, Option.some.injEq] at h2
        exact .inr ⟨e, x, he, by rw [hpc]; simp [EvPc.pos, h2], h5⟩
    · rename_i i r t hpc
      split
      · split
        · refine log_up h rfl (Nat.le_refl _) (fun y _ h2 => .inl h2) (Nat.le_refl _) rfl ?_
          intro e' x h1 h2 y h4 h5
          cases h1
          simp only [EvPc.pos, Option.some.injEq] at h2
          exact .inr ⟨e, x, he, by rw [hpc]; simp [EvPc.pos, h2], h5⟩
        · exact h
      · refine log_up h rfl (Nat.le_refl _) (fun y _ h2 => .inl h2) (Nat.le_refl _) rfl ?_
        intro e' x h1 h2 y h4 h5
        cases h1
        simp only [EvPc.pos, Option.some.injEq] at h2
        exact .inr ⟨e, x, he, by rw [hpc]; simp [EvPc.pos, h2], h5⟩
    · rename_i x t hpc
      have h1 := hm.evTgt e t he (by rw [hpc]; rfl)
      have h2 := hm.evPos e x t he (by rw [hpc]; rfl) (by rw [hpc]; rfl)
      split
      · exact
          { recs := h.recs
            disj := h.disj
            cop := fun y a b => List.mem_cons_of_mem _ (h.cop y a b)
            copEv := by
              intro e' x' a b y d f
              cases a
              simp only [EvPc.pos, Option.some.injEq] at b
              by_cases hy : y = x
              · subst hy; exact List.mem_cons_self
              · exact List.mem_cons_of_mem _
                  (h.copEv e x he (by rw [hpc]; rfl) y d (by omega))
            copWip := by
              intro y hy
              rcases List.mem_cons.1 hy with hy | hy
              · cases hy; dsimp only; omega
              · exact h.copWip y hy
            saved := by
              intro x' r pre hsuf
              rcases List.suffix_cons_iff.1 hsuf with hsuf | hsuf
              · cases hsuf
              · exact h.saved x' r pre hsuf
            once := by
              intro x' r pre hsuf
              rcases List.suffix_cons_iff.1 hsuf with hsuf | hsuf
              · cases hsuf
              · exact h.once x' r pre hsuf }
      · refine log_up h rfl (Nat.le_refl _) (fun y _ h2 => .inl h2) (Nat.le_refl _) rfl ?_
        intro e' x' h3 h4 y h5 h6
        cases h3
        simp only [EvPc.pos, Option.some.injEq] at h4
        exact .inr ⟨e, x, he, by rw [hpc]; rfl, by omega⟩
    · rename_i t hpc
      split
      · refine log_up h rfl (Nat.le_refl _) ?_ (Nat.le_refl _) rfl ?_
        · intro y h1 h2
          exact .inr ⟨e, t, he, by rw [hpc]; rfl, h2⟩
        · intro e' x h1 h2; exact absurd h1 (by simp [evDone])
      · exact h

end Verif.UndoLog
