import Verif.Extents.Global

namespace Verif.Extents

theorem Foc.disj {lo ol used oh oo : List Ext} {fl nf ofr : Nat} {pc : PC}
    (h : Foc lo ol used fl nf pc oh oo ofr) {x y : Ext} (hx : x ∈ lo) (hy : y ∈ lo) (b : Nat)
    (h1 : x.1 ≤ b) (h2 : b < x.1 + x.2) (h3 : y.1 ≤ b) (h4 : b < y.1 + y.2) : x = y := by
  apply Decidable.byContradiction
  intro hne
  have hce := cover_erase hx b
  rw [if_pos ⟨h1, h2⟩] at hce
  have hy' : y ∈ lo.erase x := (List.mem_erase_of_ne (Ne.symm hne)).2 hy
  have := cover_mem_of hy' h3 h4
  have hb := h.cov b
  split at hb <;> omega

theorem Foc.disjHold {lo ol used oh oo : List Ext} {fl nf ofr : Nat} {pc : PC}
    (h : Foc lo ol used fl nf pc oh oo ofr) {x y : Ext} (hx : x ∈ lo) (hy : y ∈ hold pc) (b : Nat)
    (h1 : x.1 ≤ b) (h2 : b < x.1 + x.2) (h3 : y.1 ≤ b) (h4 : b < y.1 + y.2) : False := by
  have := cover_mem_of hx h1 h2
  have := cover_mem_of hy h3 h4
  have hb := h.cov b
  split at hb <;> omega

/-- Start of `get_extent` in a coalesced state. -/
theorem ser_startGet {lo ol used oh oo : List Ext} {fl nf ofr : Nat} {pc : PC}
    (h : Foc lo ol used fl nf pc oh oo ofr) (hs : NoAdj lo) {x : Ext} (hx : x ∈ lo) {need : Nat}
    (hn : 0 < need) (hle : need ≤ x.2) : NoAdj (remExt x.1 x.2 need ++ lo.erase x) := by
  intro a ha b hb hab
  have hsub : ∀ y ∈ lo.erase x, y ∈ lo := fun y hy => List.mem_of_mem_erase hy
  rw [List.mem_append] at ha hb
  have hrem : ∀ y, y ∈ remExt x.1 x.2 need → y = (x.1 + need, x.2 - need) ∧ 0 < x.2 - need := by
    intro y hy
    unfold remExt at hy
    split at hy <;> simp at hy
    exact ⟨hy, by omega⟩
  rcases ha with ha | ha <;> rcases hb with hb | hb
  · obtain ⟨rfl, _⟩ := hrem _ ha
    obtain ⟨rfl, _⟩ := hrem _ hb
    dsimp only at hab; omega
  · obtain ⟨rfl, _⟩ := hrem _ ha
    exact hs x hx b (hsub b hb) (by dsimp only at hab; omega)
  · obtain ⟨rfl, _⟩ := hrem _ hb
    have hpos := h.posLo a (hsub a ha)
    dsimp only at hab
    have := h.disj (hsub a ha) hx (x.1 + need - 1) (by omega) (by omega) (by omega) (by omega)
    subst this
    omega
  · exact hs a (hsub a ha) b (hsub b hb) hab

/-- One uncontended step: the program advances, keeps the serial invariant. -/
theorem step_ser {s : State} {i : Nat} {pc : PC}
    (hpc : s.procs[i]? = some pc) (hw : WF pc)
    (h : Foc s.lo s.ol s.used s.fileLen s.numFree pc [] [] 0) (hs : Ser s.lo pc) :
    ∃ pc', (s.step i .go).procs = s.procs.set i pc' ∧ Ser (s.step i .go).lo pc' ∧
      (rank pc' < rank pc ∨ (pc' = .idle ∧ pc = .idle)) ∧
      usedAfter (s.step i .go).used pc' = usedAfter s.used pc := by
  have ho : OoIn [] [] := by intro x hx; cases hx
  obtain ⟨lo, ol, fl, nf, used, procs⟩ := s
  dsimp only at hpc h hs ⊢
  unfold State.step
  dsimp only
  rw [hpc]
  dsimp only
  cases pc with
  | idle => exact ⟨.idle, by rw [set_same hpc], hs, Or.inr ⟨rfl, rfl⟩, rfl⟩
  | g1 off len need =>
    dsimp only
    simp only [WF] at hw
    by_cases hr : len - need > 0
    · rw [if_pos hr]
      have : insOL (off + need, len - need) ol = some ((off + need, len - need) :: ol) := by
        apply insOL_eq
        intro y hy hy1
        have hc : 0 < cover (hold (.g1 off len need)) y.1 := by
          rw [hy1]; simp only [hold, cover_cons, cover_nil]; split <;> omega
        have := h.own ho hy hc
        simp only [olHold, List.mem_singleton] at this
        subst this; dsimp only at hy1; omega
      rw [this]
      exact ⟨_, rfl, hs, Or.inl (by simp [rank]), rfl⟩
    · rw [if_neg hr]
      exact ⟨_, rfl, hs, Or.inl (by simp [rank]), rfl⟩
  | g2 off len need =>
    dsimp only
    simp only [WF] at hw
    have hin : ol.any (·.1 == off) = true := by
      rw [List.any_eq_true]
      exact ⟨(off, len), by rw [h.perm.mem_iff]; simp [olHold], by simp⟩
    simp only [delOL, if_pos hin]
    exact ⟨_, rfl, hs, Or.inl (by simp [rank]), rfl⟩
  | g3 off len need =>
    dsimp only
    simp only [WF] at hw
    by_cases hr : len - need > 0
    · rw [if_pos hr]
      have : insLO (off + need, len - need) lo = some ((off + need, len - need) :: lo) := by
        apply insLO_eq
        apply h.notLo
        simp only [hold, cover_cons, cover_nil]; split <;> omega
      rw [this]
      refine ⟨_, rfl, ?_, Or.inl (by simp [rank]), rfl⟩
      simpa [Ser, remExt, if_pos hr] using hs
    · rw [if_neg hr]
      refine ⟨_, rfl, ?_, Or.inl (by simp [rank]), rfl⟩
      simpa [Ser, remExt, if_neg hr] using hs
  | f0 off len =>
    dsimp only
    simp only [WF] at hw
    have hol := olLo_of_foc h rfl
    cases hl : lastBefore (· ≤ off + len) ol with
    | none =>
      refine ⟨_, rfl, ⟨hs, ⟨?_, ?_⟩, by simp, by simp⟩, Or.inl (by simp [rank]), rfl⟩
      · intro y hy hy1
        have := lastBefore_none hl y ((hol y).2 hy)
        simp only [decide_eq_false_iff_not] at this; omega
      · intro y hy hy1
        have := lastBefore_none hl y ((hol y).2 hy)
        simp only [decide_eq_false_iff_not] at this; omega
    | some x =>
      obtain ⟨hm, hq, hmax⟩ := lastBefore_some hl
      simp only [decide_eq_true_eq] at hq hmax
      have hmlo := (hol x).1 hm
      have hxp := h.posLo x hmlo
      dsimp only
      by_cases h1 : x.1 = off + len
      · rw [if_pos h1]
        refine ⟨_, rfl, ⟨hs, ?_⟩, Or.inl (by simp [rank]), rfl⟩
        rw [← h1]; exact hmlo
      · rw [if_neg h1]
        by_cases h2 : x.1 < off
        · rw [if_pos h2]
          refine ⟨_, rfl, ⟨hs, ⟨?_, ?_⟩, by simp, ?_⟩, Or.inl (by simp [rank]), rfl⟩
          · intro y hy hy1
            have := hmax y ((hol y).2 hy) (by omega)
            omega
          · intro y hy hy1
            have hyx := hmax y ((hol y).2 hy) (by omega)
            have := h.posLo y hy
            have : y = x := h.disj hy hmlo x.1 hyx (by omega) (by omega) (by omega)
            subst this
            rw [if_pos hy1]
          · intro k hk
            split at hk <;> cases hk
            have : off - x.2 = x.1 := by omega
            rw [this]; exact hmlo
        · exfalso
          exact h.disjHold hmlo (y := (off, len)) (by simp [hold]) x.1 (by omega) (by omega)
            (by dsimp only; omega) (by dsimp only; omega)
  | f0b off len r =>
    dsimp only
    simp only [WF] at hw
    obtain ⟨hs, hr⟩ := hs
    have hol := olLo_of_foc h rfl
    have hex : ∀ y ∈ lo, y.1 = off + len → some r = some y.2 := by
      intro y hy hy1
      have := h.posLo y hy
      have := h.disj hy hr (off + len) (by omega) (by omega) (by dsimp only; omega)
        (by dsimp only; omega)
      subst this; rfl
    cases hl : lastBefore (· < off + len) ol with
    | none =>
      refine ⟨_, rfl, ⟨hs, ⟨hex, ?_⟩, ?_, by simp⟩, Or.inl (by simp [rank]), rfl⟩
      · intro y hy hy1
        have := lastBefore_none hl y ((hol y).2 hy)
        have := h.posLo y hy
        simp only [decide_eq_false_iff_not] at *; omega
      · intro k hk; cases hk; exact hr
    | some x =>
      obtain ⟨hm, hq, hmax⟩ := lastBefore_some hl
      simp only [decide_eq_true_eq] at hq hmax
      have hmlo := (hol x).1 hm
      have hxp := h.posLo x hmlo
      refine ⟨_, rfl, ⟨hs, ⟨hex, ?_⟩, ?_, ?_⟩, Or.inl (by simp [rank]), rfl⟩
      · intro y hy hy1
        have := h.posLo y hy
        have hyx := hmax y ((hol y).2 hy) (by omega)
        by_cases hxo : x.1 < off
        · have : y = x := h.disj hy hmlo x.1 hyx (by omega) (by omega) (by omega)
          subst this
          rw [if_pos hy1]
        · exfalso
          exact h.disjHold hmlo (y := (off, len)) (by simp [hold]) x.1 (by omega) (by omega)
            (by dsimp only; omega) (by dsimp only; omega)
      · intro k hk; cases hk; exact hr
      · intro k hk
        split at hk <;> cases hk
        have : off - x.2 = x.1 := by omega
        rw [this]; exact hmlo
  | f1 off len l r =>
    obtain ⟨hs, he, hr, hl⟩ := hs
    cases r with
    | none =>
      refine ⟨_, rfl, ⟨?_, ?_, hl⟩, Or.inl (by simp [rank]), rfl⟩
      · simpa [rExt] using hs
      · simpa [rExt] using he
    | some k =>
      have hm := hr k rfl
      simp only [delLO, if_pos hm]
      have hp := List.perm_cons_erase hm
      have hmem : ∀ x, x ∈ rExt off len (some k) ++ lo.erase (off + len, k) ↔ x ∈ lo := by
        intro x
        rw [hp.mem_iff]
        simp [rExt]
      refine ⟨_, rfl, ⟨?_, ⟨?_, ?_⟩, ?_⟩, Or.inl (by simp [rank]), rfl⟩
      · exact noAdj_sub hs (fun x hx => (hmem x).1 hx)
      · intro y hy hy1; exact he.1 y ((hmem y).1 hy) hy1
      · intro y hy hy1; exact he.2 y ((hmem y).1 hy) hy1
      · intro j hj
        have h1 := hl j hj
        have h2 := hw.2.1 j hj
        have h3 := hw.1
        exact (List.mem_erase_of_ne (by
          intro hc
          have := congrArg Prod.fst hc
          dsimp only at this
          omega)).2 h1
  | f2 off len l r =>
    obtain ⟨hs, he, hl⟩ := hs
    cases l with
    | none =>
      refine ⟨_, rfl, ⟨?_, ?_⟩, Or.inl (by simp [rank]), rfl⟩
      · simpa [lExt] using hs
      · simpa [lExt] using he
    | some k =>
      have hm := hl k rfl
      simp only [delLO, if_pos hm]
      have hp := List.perm_cons_erase hm
      have hmem : ∀ x, x ∈ rExt off len r ++ (lExt off (some k) ++ lo.erase (off - k, k)) ↔
          x ∈ rExt off len r ++ lo := by
        intro x
        rw [List.mem_append, List.mem_append, List.mem_append, hp.mem_iff]
        simp [lExt]
      refine ⟨_, rfl, ⟨?_, ⟨?_, ?_⟩⟩, Or.inl (by simp [rank]), rfl⟩
      · exact noAdj_sub hs (fun x hx => (hmem x).1 hx)
      · intro y hy hy1; exact he.1 y ((hmem y).1 hy) hy1
      · intro y hy hy1; exact he.2 y ((hmem y).1 hy) hy1
  | f3 off len l r =>
    cases r with
    | none => exact ⟨_, rfl, hs, Or.inl (by simp [rank]), rfl⟩
    | some k =>
      have hin : ol.any (·.1 == off + len) = true := by
        rw [List.any_eq_true]
        exact ⟨(off + len, k), by rw [h.perm.mem_iff]; simp [olHold, rExt], by simp⟩
      simp only [delOL, if_pos hin]
      exact ⟨_, rfl, hs, Or.inl (by simp [rank]), rfl⟩
  | f4 off len l r =>
    -- every other free extent is away from both ends of the merged one
    have hends : ∀ y ∈ lo, y.1 ≠ off + len + r.getD 0 ∧ y.1 + y.2 ≠ off - l.getD 0 := by
      intro y hy
      have hyl := h.posLo y hy
      obtain ⟨hs, he⟩ := hs
      have hyin : y ∈ rExt off len r ++ (lExt off l ++ lo) := by simp [hy]
      constructor
      · intro hc
        cases r with
        | none =>
          have := he.1 y hyin (by simpa using hc)
          cases this
        | some k =>
          refine hs (off + len, k) (by simp [rExt]) y hyin ?_
          simp only [Option.getD_some] at hc
          dsimp only; omega
      · intro hc
        cases l with
        | none =>
          have := he.2 y hyin (by simpa using hc)
          cases this
        | some k =>
          refine hs y hyin (off - k, k) (by simp [lExt]) ?_
          simpa using hc
    have hnad : NoAdj lo := noAdj_sub hs.1 (fun x hx => by simp [hx])
    have hw1 := hw.1
    have main : ∀ o n, o = off - l.getD 0 → o + n = off + len + r.getD 0 → 0 < n →
        NoAdj ((o, n) :: lo) := by
      intro o n ho hn hpos x hx y hy hxy
      rcases List.mem_cons.1 hx with rfl | hx <;> rcases List.mem_cons.1 hy with rfl | hy
      · dsimp only at hxy; omega
      · exact (hends y hy).1 (by dsimp only at hxy; omega)
      · exact (hends x hx).2 (by dsimp only at hxy; omega)
      · exact hnad x hx y hy hxy
    cases l with
    | none =>
      refine ⟨_, rfl, ?_, Or.inl (by simp [rank]), rfl⟩
      exact main _ _ (by simp) (by omega) (by omega)
    | some k =>
      have hk := hw.2.1 k rfl
      have hin : ol.any (·.1 == off - k) = true := by
        rw [List.any_eq_true]
        exact ⟨(off - k, k), by rw [h.perm.mem_iff]; simp [olHold, lExt], by simp⟩
      simp only [delOL, if_pos hin]
      refine ⟨_, rfl, ?_, Or.inl (by simp [rank]), rfl⟩
      exact main _ _ (by simp) (by omega) (by omega)
  | f5 off len =>
    dsimp only
    simp only [WF] at hw
    have : insOL (off, len) ol = some ((off, len) :: ol) := by
      apply insOL_eq
      intro y hy hy1
      have hc : 0 < cover (hold (.f5 off len)) y.1 := by
        rw [hy1]; simp only [hold, cover_cons, cover_nil]; split <;> omega
      have := h.own ho hy hc
      simp [olHold] at this
    rw [this]
    exact ⟨_, rfl, hs, Or.inl (by simp [rank]), rfl⟩
  | f6 off len =>
    dsimp only
    simp only [WF] at hw
    have : insLO (off, len) lo = some ((off, len) :: lo) := by
      apply insLO_eq
      apply h.notLo
      exact cover_mem (by simp [hold]) hw
    rw [this]
    exact ⟨_, rfl, hs, Or.inl (by simp [rank]), rfl⟩
  | f2b => exact hs.elim
  | fatal => exact hs.elim

/-- The state apart from process `i` is at rest. -/
structure Solo (s : State) (i : Nat) (pc : PC) : Prop where
  inv : Inv s
  at_ : s.procs[i]? = some pc
  rest : ∀ j p, j ≠ i → s.procs[j]? = some p → p = .idle
  ser : Ser s.lo pc

theorem idle_flat {A B : List PC} (h : ∀ p ∈ A ++ B, p = .idle) :
    (A ++ B).flatMap hold = [] ∧ (A ++ B).flatMap olHold = [] ∧ othersFree (A ++ B) = 0 := by
  refine ⟨?_, ?_, ?_⟩
  · rw [List.flatMap_eq_nil_iff]; intro p hp; rw [h p hp]; rfl
  · rw [List.flatMap_eq_nil_iff]; intro p hp; rw [h p hp]; rfl
  · generalize A ++ B = l at h
    induction l with
    | nil => rfl
    | cons p l ih =>
      have := ih (fun q hq => h q (by simp [hq]))
      have hp := h p (by simp)
      subst hp
      simpa [othersFree, freeHold, hold, size] using this

theorem Solo.foc {s : State} {i : Nat} {pc : PC} (h : Solo s i pc) :
    Foc s.lo s.ol s.used s.fileLen s.numFree pc [] [] 0 ∧ WF pc := by
  obtain ⟨hlt, hget⟩ := List.getElem?_eq_some_iff.1 h.at_
  have hAB : s.procs = s.procs.take i ++ pc :: s.procs.drop (i + 1) := by
    rw [← hget, ← List.drop_eq_getElem_cons hlt, List.take_append_drop]
  have hidle : ∀ p ∈ s.procs.take i ++ s.procs.drop (i + 1), p = .idle := by
    intro p hp
    rcases List.mem_append.1 hp with hp | hp
    · obtain ⟨j, hj, rfl⟩ := List.getElem_of_mem hp
      rw [List.length_take] at hj
      refine h.rest j _ (by omega) ?_
      rw [List.getElem_take, List.getElem?_eq_getElem]
    · obtain ⟨j, hj, rfl⟩ := List.getElem_of_mem hp
      rw [List.length_drop] at hj
      refine h.rest (i + 1 + j) _ (by omega) ?_
      rw [List.getElem_drop, List.getElem?_eq_getElem]
  obtain ⟨h1, h2, h3⟩ := idle_flat hidle
  have hf := h.inv.foc
  rw [hAB, foc_iff, h1, h2, h3] at hf
  exact ⟨hf, h.inv.wf pc (by rw [hAB]; simp)⟩

theorem Solo.go {s : State} {i : Nat} {pc : PC} (h : Solo s i pc) :
    ∃ pc', Solo (s.step i .go) i pc' ∧ (rank pc' < rank pc ∨ (pc' = .idle ∧ pc = .idle)) ∧
      usedAfter (s.step i .go).used pc' = usedAfter s.used pc := by
  obtain ⟨hf, hw⟩ := h.foc
  obtain ⟨pc', hp, hs, hr, hu⟩ := step_ser h.at_ hw hf h.ser
  obtain ⟨hlt, _⟩ := List.getElem?_eq_some_iff.1 h.at_
  refine ⟨pc', ⟨inv_step h.inv i .go, ?_, ?_, hs⟩, hr, hu⟩
  · rw [hp, List.getElem?_set]; simp [hlt]
  · intro j p hj hjp
    rw [hp, List.getElem?_set, if_neg (Ne.symm hj)] at hjp
    exact h.rest j p hj hjp

/-- Letting one process run for at least `rank pc` steps completes its operation. -/
theorem Solo.finish {i : Nat} (n : Nat) : ∀ {s : State} {pc : PC}, Solo s i pc → rank pc ≤ n →
    Solo (s.run (List.replicate n (i, .go))) i .idle ∧
      (s.run (List.replicate n (i, .go))).used = usedAfter s.used pc := by
  induction n with
  | zero =>
    intro s pc h hr
    have : pc = .idle := by
      cases pc <;> simp [rank] at hr
      · rfl
      · exact h.ser.elim
    subst this
    exact ⟨h, rfl⟩
  | succ n ih =>
    intro s pc h hr
    obtain ⟨pc', h', hr', hu⟩ := h.go
    have := ih h' (by
      rcases hr' with hr' | ⟨rfl, rfl⟩
      · omega
      · simp [rank])
    rw [List.replicate_succ]
    simp only [State.run, List.foldl_cons] at this ⊢
    rw [← hu]
    exact this

end Verif.Extents
