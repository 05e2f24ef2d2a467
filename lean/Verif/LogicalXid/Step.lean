import Verif.LogicalXid.Inv

/-!
# Every step keeps the invariant
-/

set_option linter.unusedSimpArgs false

namespace Verif.LogicalXid

/-- The state after a step of process `p`. -/
def afterStep (s : St) (p : Nat) (r : List Nat × Proc × Option Nat) : St :=
  { map := r.1
    procs := s.procs.set p r.2.1
    wal := match r.2.2 with | none => s.wal | some x => s.wal ++ [(p, x)] }

theorem Items.range {items : Nat} (h : Items items) : 0 < items ∧ items ≤ 2097152 := by
  obtain ⟨g, h1, h2, rfl⟩ := h; omega

theorem cnt_todo {d m : Nat} {pr : Proc} {t : List Task}
    (h1 : handedBack pr = false) (h2 : handedBack { pr with todo := t } = false) :
    cnt d m { pr with todo := t } = cnt d m pr := by
  simp only [cnt, h1, h2]

theorem cnt_of {d m : Nat} {pr : Proc} (h : handedBack pr = false) :
    cnt d m pr = one d m pr.ctx + (pr.stack.map (fun e => one d m e.1)).sum +
      (pr.saved.map (fun e => one d m e.2)).sum := by
  simp [cnt, h]

theorem follow_shape {items : Nat} {pr : Proc} {rest : List Task} (hf : Follow rest)
    (ho : pr.oxid = true) (ht : pr.todo = rest) :
    Shape items pr ∧ handedBack pr = false := by
  rcases hf with rfl | ⟨n, rfl | rfl⟩
  · simp [Shape, handedBack, ht, ho]
  · simp [Shape, handedBack, ht, ho]
  · simp [Shape, handedBack, ht, ho]

theorem sum_dropLast {d m : Nat} : ∀ (l : List (Nat × Nat)), l ≠ [] →
    (l.map (fun e => one d m e.1)).sum =
      one d m (l.getLast?.getD (0, 0)).1 + (l.dropLast.map (fun e => one d m e.1)).sum := by
  intro l h
  rcases List.eq_nil_or_concat l with rfl | ⟨l', e, rfl⟩
  · exact absurd rfl h
  · simp only [List.concat_eq_append, List.map_append, List.sum_append, List.map_cons,
      List.map_nil, List.sum_cons, List.sum_nil, List.getLast?_append, List.getLast?_singleton,
      List.dropLast_concat]
    simp
    omega

theorem step_inv {items : Nat} {s : St} {p xmin : Nat} {pr : Proc} {t : Task}
    {rest : List Task} (hit : Items items) (h : Inv items s) (hp : s.procs[p]? = some pr)
    (ht : pr.todo = t :: rest) (hx : xmin < 4294967296) :
    Inv items (afterStep s p (stepTask s p xmin pr rest t)) := by
  have hpi := h.procs pr (List.mem_of_getElem? hp)
  have hs := hpi.shape
  have hl : s.map.length = items := h.len
  obtain ⟨hi0, hi1⟩ : 0 < items ∧ items ≤ 2097152 := hit.range
  cases t with
  | scan d i k =>
    have hb0 : handedBack pr = false := by simp [handedBack, ht]
    have hi : i < items := by
      cases d <;> (simp only [Shape, ht] at hs; exact hs.1)
    have hox : pr.oxid = true := by
      cases d <;> (simp only [Shape, ht] at hs; exact hs.2.1)
    have hw := lowZero_spec _ (word_lt h i)
    -- a scan at another word has the same shape
    have hre : ∀ j k', j < items → Shape items { pr with todo := .scan d j k' :: rest } := by
      intro j k' hj
      cases d with
      | ctx =>
        simp only [Shape, ht] at hs ⊢
        exact ⟨hj, hs.2⟩
      | sub n =>
        simp only [Shape, ht] at hs ⊢
        exact ⟨hj, hs.2⟩
    simp only [stepTask]
    by_cases hz : lowZero (s.map[i]?.getD 0) = 0
    · simp only [if_pos hz]
      by_cases h1 : i + 1 ≥ s.items
      · simp only [if_pos h1]
        by_cases h2 : k + 1 > 16
        · simp only [if_pos h2]
          refine inv_local h hp ⟨?_, hpi.saved⟩ (fun m => cnt_todo hb0 ?_)
          · simp [Shape, hox]
          · simp [handedBack]
        · simp only [if_neg h2]
          exact inv_local h hp ⟨hre 0 (k + 1) hi0, hpi.saved⟩
            (fun m => cnt_todo hb0 (by simp [handedBack]))
      · simp only [if_neg h1]
        refine inv_local h hp ⟨hre (i + 1) k ?_, hpi.saved⟩
          (fun m => cnt_todo hb0 (by simp [handedBack]))
        rw [St.items, hl] at h1; omega
    · simp only [if_neg hz]
      have hk : ∃ k, k < 32 ∧ lowZero (s.map[i]?.getD 0) = 2 ^ k := by
        rcases hw with ⟨_, e⟩ | ⟨k, hk, _, e⟩
        · exact absurd e hz
        · exact ⟨k, hk, e⟩
      refine inv_local h hp ⟨?_, hpi.saved⟩ (fun m => cnt_todo hb0 (by simp [handedBack]))
      cases d with
      | ctx =>
        simp only [Shape, ht] at hs ⊢
        exact ⟨hi, hk, hs.2⟩
      | sub n =>
        simp only [Shape, ht] at hs ⊢
        exact ⟨hi, hk, hs.2⟩
  | take d i k b =>
    have hb0 : handedBack pr = false := by simp [handedBack, ht]
    have hi : i < items := by
      cases d <;> (simp only [Shape, ht] at hs; exact hs.1)
    have hbb : ∃ k, k < 32 ∧ b = 2 ^ k := by
      cases d <;> (simp only [Shape, ht] at hs; exact hs.2.1)
    have hox : pr.oxid = true := by
      cases d <;> (simp only [Shape, ht] at hs; exact hs.2.2.1)
    obtain ⟨kk, hkk, rfl⟩ := hbb
    simp only [stepTask]
    by_cases hz : (s.map[i]?.getD 0) &&& 2 ^ kk = 0
    · simp only [if_pos hz]
      have hfree := word_and_two_pow.mp hz
      have hlog : (2 ^ kk).log2 = kk := Nat.log2_two_pow
      rw [hlog]
      have hdiv : s.divider = items * 32 := by rw [St.divider, hl]
      rw [hdiv]
      have hid := logicalId_spec (d := items * 32) (xmin := xmin) (num := i * 32 + kk)
        (by omega) (by omega) hx (by omega)
      generalize logicalId (items * 32) xmin (i * 32 + kk) = x at hid
      obtain ⟨hid1, hid2, hid3⟩ := hid
      cases d with
      | ctx =>
        simp only [Shape, ht] at hs
        obtain ⟨_, _, _, hc0, hf⟩ := hs
        have hfs := follow_shape (items := items)
          (pr := ({ pr with
                    ctx := x
                    todo := rest } : Proc)) hf hox rfl
        refine inv_take (x := x) h hp ⟨hfs.1, hpi.saved⟩ hi hkk hfree (by omega) hid1 ?_
        intro m
        rw [cnt_of hb0, hc0, one_zero]
        refine (cnt_of (pr := ({ pr with
                    ctx := x
                    todo := rest } : Proc)) hfs.2).trans ?_
        dsimp only
        omega
      | sub n =>
        simp only [Shape, ht] at hs
        obtain ⟨_, _, _, rfl⟩ := hs
        refine inv_take (x := x) h hp ⟨?_, hpi.saved⟩ hi hkk hfree (by omega) hid1 ?_
        · simp [Shape, store, hox]
        · intro m
          rw [cnt_of hb0]
          refine (cnt_of (pr := ({ pr with
                    ctx := x
                    stack := pr.stack ++ [(pr.ctx, n)]
                    todo := [] } : Proc)) rfl).trans ?_
          simp only [List.map_append, List.sum_append,
            List.map_cons, List.map_nil, List.sum_cons, List.sum_nil]
          omega
    · simp only [if_neg hz]
      have hset : (s.map[i]?.getD 0) ||| 2 ^ kk = s.map[i]?.getD 0 := by
        have ht : (s.map[i]?.getD 0).testBit kk = true := by
          cases e : (s.map[i]?.getD 0).testBit kk with
          | true => rfl
          | false => exact absurd (word_and_two_pow.mpr e) hz
        apply Nat.eq_of_testBit_eq
        intro j
        rw [Nat.testBit_or, Nat.testBit_two_pow]
        by_cases e : kk = j
        · subst e; simp [ht]
        · simp [e]
      have hmap : s.map.set i ((s.map[i]?.getD 0) ||| 2 ^ kk) = s.map := by
        rw [hset]
        apply List.ext_getElem?
        intro j
        by_cases e : i = j
        · subst e
          rw [List.getElem?_set_self (by omega)]
          rw [List.getElem?_eq_getElem (by omega)]; rfl
        · rw [List.getElem?_set_ne e]
      rw [hmap]
      refine inv_local h hp ⟨?_, hpi.saved⟩ (fun m => cnt_todo hb0 (by simp [handedBack]))
      cases d with
      | ctx =>
        simp only [Shape, ht] at hs ⊢
        exact ⟨hi, hs.2.2⟩
      | sub n =>
        simp only [Shape, ht] at hs ⊢
        exact ⟨hi, hs.2.2⟩
  | ensure =>
    have hb0 : handedBack pr = false := by simp [handedBack, ht]
    simp only [Shape, ht] at hs
    obtain ⟨ho, n, rfl⟩ := hs
    simp only [stepTask]
    by_cases hc : pr.ctx = 0
    · simp only [if_pos hc]
      refine inv_local h hp ⟨?_, hpi.saved⟩
        (fun m => cnt_todo hb0 (by simp [handedBack, startTask]))
      simp only [Shape, startTask]
      exact ⟨by rw [St.items, hl]; exact Nat.mod_lt _ hi0, ho, hc, Or.inr ⟨n, Or.inl rfl⟩⟩
    · simp only [if_neg hc]
      refine inv_local h hp ⟨?_, hpi.saved⟩ (fun m => cnt_todo hb0 (by simp [handedBack]))
      simp [Shape, ho]
  | assign n =>
    have hb0 : handedBack pr = false := by simp [handedBack, ht]
    simp only [Shape, ht] at hs
    obtain ⟨ho, rfl⟩ := hs
    simp only [stepTask]
    refine inv_local h hp ⟨?_, hpi.saved⟩
      (fun m => cnt_todo hb0 (by simp [handedBack, startTask]))
    simp only [Shape, startTask]
    exact ⟨by rw [St.items, hl]; exact Nat.mod_lt _ hi0, ho, trivial⟩
  | releaseSub n heap =>
    have hb0 : handedBack pr = false := by simp [handedBack, ht]
    simp only [Shape, ht] at hs
    obtain ⟨ho, hc, hst, rfl⟩ := hs
    simp only [stepTask]
    refine inv_clear (x := pr.ctx) h hi0 hp ⟨?_, hpi.saved⟩ hc ?_
    · cases heap
      · exact ⟨ho, hc, hst, rfl⟩
      · exact ⟨ho, hc, hst, n, rfl⟩
    · intro m
      cases heap <;> (simp only [cnt, hb0]; simp [handedBack]; omega)
  | recordSub n =>
    have hb0 : handedBack pr = true := by simp [handedBack, ht]
    simp only [Shape, ht] at hs
    obtain ⟨ho, hc, hst, n', rfl⟩ := hs
    simp only [stepTask]
    refine inv_local h hp ⟨?_, hpi.saved⟩ ?_
    · exact ⟨ho, hc, hst, rfl⟩
    · intro m
      simp only [cnt, hb0]; simp [handedBack]
  | restore n =>
    have hb0 : handedBack pr = true := by simp [handedBack, ht]
    simp only [Shape, ht] at hs
    obtain ⟨ho, hc, hst, rfl⟩ := hs
    simp only [stepTask]
    refine inv_local h hp ⟨?_, hpi.saved⟩ ?_
    · simp [Shape, ho]
    · intro m
      have := sum_dropLast (d := items * 32) (m := m) pr.stack hst
      simp only [cnt, hb0, this]
      simp [handedBack]
  | releaseAll =>
    have hb0 : handedBack pr = false := by simp [handedBack, ht]
    simp only [Shape, ht] at hs
    obtain ⟨ho, hrest⟩ := hs
    have hkeep : ∀ (c : Nat) (st : List (Nat × Nat)),
        Shape items { pr with
          ctx := c
          stack := st } := by
      intro c st
      simp only [Shape, ht]
      exact ⟨ho, hrest⟩
    simp only [stepTask]
    by_cases hc : pr.ctx ≠ 0
    · simp only [if_pos hc]
      refine inv_clear (x := pr.ctx) h hi0 hp ⟨hkeep 0 pr.stack, hpi.saved⟩ hc ?_
      intro m
      have e : handedBack { pr with ctx := 0 } = false := by simp [handedBack, ht]
      simp only [cnt, hb0, e, one_zero, Bool.false_eq_true, if_false]
      omega
    · simp only [if_neg hc]
      have hc0 : pr.ctx = 0 := by omega
      by_cases hsv : pr.saved.isEmpty = true
      · simp only [if_pos hsv]
        have hse : pr.saved = [] := by simpa using hsv
        have hr : rest = [] := by
          rcases hrest with hr | ⟨_, hne⟩
          · exact hr
          · exact absurd hse hne
        cases hst : pr.stack with
        | nil =>
          subst hr
          have hgoal : Inv items ⟨s.map, s.procs.set p { pr with todo := [] }, s.wal⟩ := by
            refine inv_local h hp ⟨?_, hpi.saved⟩ (fun m => cnt_todo hb0 rfl)
            simp [Shape, hc0]
          rw [hst] at hgoal
          exact hgoal
        | cons e es =>
          simp only
          by_cases he : e.1 ≠ 0
          · simp only [if_pos he]
            refine inv_clear (x := e.1) h hi0 hp ⟨hkeep pr.ctx es, hpi.saved⟩ he ?_
            intro m
            have e2 : handedBack { pr with stack := es } = false := by simp [handedBack, ht]
            simp only [cnt, hb0, e2, hst, List.map_cons, List.sum_cons, Bool.false_eq_true, if_false]
            omega
          · simp only [if_neg he]
            have he0 : e.1 = 0 := by omega
            refine inv_local h hp ⟨hkeep pr.ctx es, hpi.saved⟩ ?_
            intro m
            have e2 : handedBack { pr with stack := es } = false := by simp [handedBack, ht]
            simp only [cnt, hb0, e2, hst, List.map_cons, List.sum_cons, he0, one_zero]
            omega
      · simp only [if_neg hsv]
        refine inv_local h hp ⟨?_, hpi.saved⟩ (fun m => cnt_todo hb0 ?_)
        · rcases hrest with rfl | ⟨rfl, _⟩
          · simp [Shape, hc0]
          · simp [Shape, hc0, ho]
        · rcases hrest with rfl | ⟨rfl, _⟩ <;> simp [handedBack]
  | endAuto =>
    have hb0 : handedBack pr = false := by simp [handedBack, ht]
    simp only [Shape, ht] at hs
    obtain ⟨ho, hc0, rfl⟩ := hs
    simp only [stepTask]
    cases hsv : pr.saved with
    | nil =>
      have hgoal : Inv items ⟨s.map, s.procs.set p { pr with todo := [] }, s.wal⟩ := by
        refine inv_local h hp ⟨?_, hpi.saved⟩ (fun m => cnt_todo hb0 rfl)
        simp [Shape, hc0]
      rw [hsv] at hgoal
      exact hgoal
    | cons e sv =>
      obtain ⟨o, x⟩ := e
      refine inv_local (pr' := { pr with
                                oxid := o
                                ctx := x
                                saved := sv
                                todo := [] }) h hp ⟨?_, ?_⟩ ?_
      · simp only [Shape]
        intro hof
        have := hpi.saved (o, x) (by rw [hsv]; exact List.mem_cons_self)
        simp only at this
        refine Decidable.byContradiction (fun hne => ?_)
        rw [this hne] at hof; cases hof
      · intro e he hne
        exact hpi.saved e (by rw [hsv]; exact List.mem_cons_of_mem _ he) hne
      · intro m
        rw [cnt_of hb0, hc0, one_zero, hsv]
        refine (cnt_of (pr := ({ pr with
                                oxid := o
                                ctx := x
                                saved := sv
                                todo := [] } : Proc)) rfl).trans ?_
        simp only [List.map_cons, List.sum_cons]
        omega

theorem exec_inv {items : Nat} {s : St} {p : Nat} {a : Act} (hit : Items items)
    (h : Inv items s) (hx : ∀ x, a = .step x → x < 4294967296) : Inv items (exec s p a) := by
  unfold exec
  cases hp : s.procs[p]? with
  | none => exact h
  | some pr =>
    have hpi := h.procs pr (List.mem_of_getElem? hp)
    cases ht : pr.todo with
    | nil =>
      have hb := begin_inv (items := items) (s := s) (p := p) (a := a) h.len hit.range.1 hpi ht
      cases a with
      | write =>
        simp only [ht]
        split
        · exact h
        · exact ⟨h.len, h.words, h.procs, h.bal⟩
      | step x => simp only [ht]; exact h
      | getOxid => simp only [ht]; exact inv_local h hp hb.1 hb.2
      | subStart n r => simp only [ht]; exact inv_local h hp hb.1 hb.2
      | subCommit n r hh => simp only [ht]; exact inv_local h hp hb.1 hb.2
      | subAbort n r => simp only [ht]; exact inv_local h hp hb.1 hb.2
      | finish => simp only [ht]; exact inv_local h hp hb.1 hb.2
      | startAuto => simp only [ht]; exact inv_local h hp hb.1 hb.2
      | endAuto => simp only [ht]; exact inv_local h hp hb.1 hb.2
    | cons t rest =>
      cases a with
      | step x =>
        simp only [ht]
        exact step_inv hit h hp ht (hx x rfl)
      | write => simp only [ht]; exact h
      | getOxid => simp only [ht]; exact h
      | subStart n r => simp only [ht]; exact h
      | subCommit n r hh => simp only [ht]; exact h
      | subAbort n r => simp only [ht]; exact h
      | finish => simp only [ht]; exact h
      | startAuto => simp only [ht]; exact h
      | endAuto => simp only [ht]; exact h

theorem init_inv {items n : Nat} : Inv items (init items n) := by
  refine ⟨by simp [init], ?_, ?_, ?_⟩
  · intro w hw
    simp only [init, List.mem_replicate] at hw
    omega
  · intro pr hpr
    simp only [init, List.mem_replicate] at hpr
    obtain ⟨_, rfl⟩ := hpr
    refine ⟨by simp [Shape], by simp⟩
  · intro m hm
    have h1 : total (items * 32) m (init items n).procs = 0 := by
      simp only [init, total, List.map_replicate, List.sum_replicate_nat]
      have : cnt (items * 32) m ({} : Proc) = 0 := by
        show (if false then 0 else one (items * 32) m 0) + 0 + 0 = 0
        simp [one]
      rw [this]; omega
    have h2 : bitOf (init items n).map m = false := by
      unfold bitOf init
      simp only [List.getElem?_replicate]
      split <;> simp
    rw [h1, h2]; simp

theorem run_inv {items : Nat} (hit : Items items) : ∀ (acts : List (Nat × Act)) (s : St),
    Legal acts → Inv items s → Inv items (run s acts) := by
  intro acts
  induction acts with
  | nil => intro s _ h; exact h
  | cons pa acts ih =>
    intro s hl h
    obtain ⟨p, a⟩ := pa
    rw [run]
    refine ih _ (fun q x hq => hl q x (List.mem_cons_of_mem _ hq)) (exec_inv hit h ?_)
    intro x hx; subst hx
    exact hl p x List.mem_cons_self

theorem reach_inv {items n : Nat} {s : St} (hit : Items items) (h : Reach items n s) :
    Inv items s := by
  obtain ⟨acts, hl, rfl⟩ := h
  exact run_inv hit acts _ hl init_inv

end Verif.LogicalXid
