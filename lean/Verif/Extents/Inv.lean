import Verif.Extents.Lemmas

namespace Verif.Extents

theorem set_same {α : Type} {l : List α} {i : Nat} {a : α} (h : l[i]? = some a) : l.set i a = l := by
  apply List.ext_getElem?
  intro j
  rw [List.getElem?_set]
  split
  · subst_vars
    split
    · exact h.symm
    · rename_i hlt
      rw [List.getElem?_eq_none (by omega)]
  · rfl

theorem count_of_perm {l m : List Ext} (h : l.Perm m) (a : Ext) : l.count a = m.count a :=
  h.count_eq a

/-- One step keeps the focused invariant. -/
theorem step_foc {s : State} {i : Nat} {c : Cmd} {pc : PC} {oh oo : List Ext} {ofr : Nat}
    (hpc : s.procs[i]? = some pc) (hw : WF pc) (ho : OoIn oh oo)
    (h : Foc s.lo s.ol s.used s.fileLen s.numFree pc oh oo ofr) :
    ∃ lo' ol' used' fl' nf' pc', s.step i c = ⟨lo', ol', fl', nf', used', s.procs.set i pc'⟩ ∧
      Foc lo' ol' used' fl' nf' pc' oh oo ofr ∧ WF pc' := by
  obtain ⟨lo, ol, fl, nf, used, procs⟩ := s
  dsimp only at hpc h
  have hperm := count_of_perm h.perm
  simp only [List.count_append] at hperm
  unfold State.step
  dsimp only
  rw [hpc]
  dsimp only
  cases pc with
  | idle =>
    have hs := set_same hpc
    cases c with
    | go => exact ⟨lo, ol, used, fl, nf, .idle, by rw [hs], h, hw⟩
    | free k =>
      simp only [startFree]
      cases hk : used[k]? with
      | none => exact ⟨lo, ol, used, fl, nf, .idle, by rw [hs], h, hw⟩
      | some x =>
        have hm : x ∈ used := List.mem_of_getElem? hk
        have hp : used.Perm (x :: used.eraseIdx k) := by
          obtain ⟨hlt, rfl⟩ := List.getElem?_eq_some_iff.1 hk
          rw [List.eraseIdx_eq_take_drop_succ]
          have := List.perm_middle (a := used[k]) (l₁ := used.take k) (l₂ := used.drop (k + 1))
          rwa [← List.drop_eq_getElem_cons hlt, List.take_append_drop] at this
        refine ⟨lo, ol, _, fl, _, _, rfl, ⟨?_, h.posLo, ?_, ?_, ?_⟩, ?_⟩
        · intro b
          have := h.cov b
          have := cover_perm hp b
          simp only [cover_cons, hold, cover_nil] at *
          omega
        · intro y hy
          exact h.posUsed y (hp.mem_iff.2 (List.mem_cons_of_mem _ hy))
        · exact h.perm
        · have := h.cnt
          simp only [freeHold, hold, size_cons, size_nil] at *
          omega
        · exact h.posUsed x hm
    | get need =>
      have hext : 0 < need → ∃ lo' ol' used' fl' nf' pc',
          (⟨lo, ol, fl + need, nf, (fl, need) :: used, procs⟩ : State) =
            ⟨lo', ol', fl', nf', used', procs.set i pc'⟩ ∧
          Foc lo' ol' used' fl' nf' pc' oh oo ofr ∧ WF pc' := by
        intro hn
        refine ⟨lo, ol, _, _, nf, .idle, by rw [hs], ⟨?_, h.posLo, ?_, h.perm, h.cnt⟩, trivial⟩
        · intro b
          have := h.cov b
          simp only [cover_cons] at *
          split at this <;> split <;> split <;> omega
        · intro y hy
          rcases List.mem_cons.1 hy with rfl | hy
          · exact hn
          · exact h.posUsed y hy
      simp only [startGet]
      split
      · exact ⟨lo, ol, used, fl, nf, .idle, by rw [hs], h, hw⟩
      · split
        · exact hext (by omega)
        · cases hb : bestFit need lo with
          | none => exact hext (by omega)
          | some x =>
            obtain ⟨xo, xl⟩ := x
            obtain ⟨hm, hge⟩ := bestFit_some hb
            refine ⟨_, ol, used, fl, _, _, rfl, ⟨?_, ?_, h.posUsed, ?_, ?_⟩, ?_⟩
            · intro b
              have := h.cov b
              have := cover_erase hm b
              simp only [cover_cons, hold, cover_nil] at *
              omega
            · intro y hy
              exact h.posLo y (List.mem_of_mem_erase hy)
            · rw [List.perm_iff_count]
              intro a
              have h1 := count_of_perm (List.perm_cons_erase hm) a
              have h2 := hperm a
              simp only [List.count_append, List.count_cons, olHold, List.count_nil] at *
              omega
            · have := h.cnt
              have := size_erase hm
              simp only [freeHold, hold, size_nil] at *
              omega
            · simp only [WF]; omega
  | g1 off len need =>
    dsimp only
    simp only [WF] at hw
    by_cases hr : len - need > 0
    · rw [if_pos hr]
      have : insOL (off + need, len - need) ol = some ((off + need, len - need) :: ol) := by
        apply insOL_eq
        intro y hy hy1
        have hc : 0 < cover (hold (.g1 off len need)) y.1 := by
          rw [hy1]; simp only [hold, cover_cons, cover_nil]; split <;> omega
        have := h.own ho hy hc
        simp only [olHold, List.mem_singleton] at this
        subst this; dsimp only at hy1; omega
      rw [this]
      refine ⟨lo, _, used, fl, nf, _, rfl, ⟨h.cov, h.posLo, h.posUsed, ?_, h.cnt⟩, hw⟩
      rw [List.perm_iff_count]
      intro a
      have h2 := hperm a
      simp only [List.count_append, List.count_cons, olHold, List.count_nil, remExt, if_pos hr] at *
      omega
    · rw [if_neg hr]
      refine ⟨lo, ol, used, fl, nf, _, rfl, ⟨h.cov, h.posLo, h.posUsed, ?_, h.cnt⟩, hw⟩
      simpa [olHold, remExt, if_neg hr] using h.perm
  | g2 off len need =>
    dsimp only
    simp only [WF] at hw
    have hin : (off, len) ∈ ol := by
      rw [h.perm.mem_iff]; simp [olHold]
    obtain ⟨t, ht, htp⟩ := delOL_eq hin (by
      intro y hy hy1
      dsimp only at hy1
      have hc : 0 < cover (hold (.g2 off len need)) y.1 := by
        rw [hy1]; simp only [hold, cover_cons, cover_nil]; split <;> omega
      have := h.own ho hy hc
      simp only [olHold, List.mem_cons, remExt] at this
      rcases this with rfl | this
      · rfl
      · split at this <;> simp at this
        subst this; dsimp only at hy1; omega)
    dsimp only at ht
    rw [ht]
    refine ⟨lo, _, used, fl, nf, _, rfl, ⟨h.cov, h.posLo, h.posUsed, ?_, h.cnt⟩, hw⟩
    rw [List.perm_iff_count]
    intro a
    have h2 := hperm a
    have h3 := count_of_perm htp a
    simp only [List.count_append, List.count_cons, olHold] at *
    omega
  | g3 off len need =>
    dsimp only
    simp only [WF] at hw
    by_cases hr : len - need > 0
    · rw [if_pos hr]
      have : insLO (off + need, len - need) lo = some ((off + need, len - need) :: lo) := by
        apply insLO_eq
        apply h.notLo
        simp only [hold, cover_cons, cover_nil]; split <;> omega
      rw [this]
      refine ⟨_, ol, _, fl, nf, _, rfl, ⟨?_, ?_, ?_, ?_, ?_⟩, trivial⟩
      · intro b
        have := h.cov b
        simp only [cover_cons, hold, cover_nil] at *
        rw [← this]
        split <;> split <;> split <;> omega
      · intro y hy
        rcases List.mem_cons.1 hy with rfl | hy
        · exact hr
        · exact h.posLo y hy
      · intro y hy
        rcases List.mem_cons.1 hy with rfl | hy
        · exact hw.1
        · exact h.posUsed y hy
      · rw [List.perm_iff_count]
        intro a
        have h2 := hperm a
        simp only [List.count_append, List.count_cons, olHold, List.count_nil, remExt,
          if_pos hr] at *
        omega
      · have := h.cnt
        simp only [freeHold, hold, size_cons, size_nil] at *
        omega
    · rw [if_neg hr]
      refine ⟨lo, ol, _, fl, nf, _, rfl, ⟨?_, h.posLo, ?_, ?_, ?_⟩, trivial⟩
      · intro b
        have := h.cov b
        simp only [cover_cons, hold, cover_nil] at *
        rw [← this]
        split <;> split <;> omega
      · intro y hy
        rcases List.mem_cons.1 hy with rfl | hy
        · exact hw.1
        · exact h.posUsed y hy
      · have := h.perm
        simpa [olHold, remExt, if_neg hr] using this
      · have := h.cnt
        simp only [freeHold, hold, size_nil] at *
        omega
  | f0 off len =>
    dsimp only
    simp only [WF] at hw
    cases hl : lastBefore (· ≤ off + len) ol with
    | none =>
      refine ⟨lo, ol, used, fl, nf, _, rfl, ⟨h.cov, h.posLo, h.posUsed, h.perm, h.cnt⟩, ?_⟩
      simp [WF, hw]
    | some x =>
      obtain ⟨hm, hq, hmax⟩ := lastBefore_some hl
      simp only [decide_eq_true_eq] at hq
      have hxp := h.olPos ho (by simpa [WF] using hw) hm
      dsimp only
      by_cases h1 : x.1 = off + len
      · rw [if_pos h1]
        refine ⟨lo, ol, used, fl, nf, _, rfl, ⟨h.cov, h.posLo, h.posUsed, h.perm, h.cnt⟩, ?_⟩
        simp only [WF]; omega
      · rw [if_neg h1]
        by_cases h2 : x.1 < off
        · rw [if_pos h2]
          refine ⟨lo, ol, used, fl, nf, _, rfl, ⟨h.cov, h.posLo, h.posUsed, h.perm, h.cnt⟩, ?_⟩
          refine ⟨hw, ?_, by simp⟩
          intro k hk
          split at hk <;> cases hk
          omega
        · exfalso
          have hc : 0 < cover (hold (.f0 off len)) x.1 := by
            simp only [hold, cover_cons, cover_nil]; split <;> omega
          have := h.own ho hm hc
          simp [olHold] at this
  | f0b off len r =>
    dsimp only
    simp only [WF] at hw
    cases hl : lastBefore (· < off + len) ol with
    | none =>
      refine ⟨lo, ol, used, fl, nf, _, rfl, ⟨h.cov, h.posLo, h.posUsed, h.perm, h.cnt⟩, ?_⟩
      simp [WF, hw]
    | some x =>
      obtain ⟨hm, hq, hmax⟩ := lastBefore_some hl
      have hxp := h.olPos ho (by simpa [WF] using hw) hm
      refine ⟨lo, ol, used, fl, nf, _, rfl, ⟨h.cov, h.posLo, h.posUsed, h.perm, h.cnt⟩, ?_⟩
      refine ⟨hw.1, ?_, ?_⟩
      · intro k hk
        split at hk <;> cases hk
        omega
      · intro k hk; cases hk; exact hw.2
  | f1 off len l r =>
    cases r with
    | none =>
      refine ⟨lo, ol, used, fl, nf, _, rfl, ⟨?_, h.posLo, h.posUsed, ?_, ?_⟩, hw⟩
      · simpa [hold, rExt] using h.cov
      · simpa [olHold, rExt] using h.perm
      · simpa [freeHold, hold, rExt] using h.cnt
    | some k =>
      dsimp only [delLO]
      by_cases hm : (off + len, k) ∈ lo
      · rw [if_pos hm]
        refine ⟨_, ol, used, fl, nf, _, rfl, ⟨?_, ?_, h.posUsed, ?_, ?_⟩, hw⟩
        · intro b
          have := h.cov b
          have := cover_erase hm b
          simp only [cover_cons, hold, cover_nil, rExt] at *
          omega
        · intro y hy
          exact h.posLo y (List.mem_of_mem_erase hy)
        · rw [List.perm_iff_count]
          intro a
          have h1 := count_of_perm (List.perm_cons_erase hm) a
          have h2 := hperm a
          simp only [List.count_append, List.count_cons, olHold, List.count_nil, rExt] at *
          omega
        · have := h.cnt
          have := size_erase hm
          simp only [freeHold, hold, size_cons, size_nil, rExt] at *
          omega
      · rw [if_neg hm]
        refine ⟨lo, ol, used, fl, nf, _, rfl, ⟨h.cov, h.posLo, h.posUsed, h.perm, h.cnt⟩, ?_⟩
        exact hw.1
  | f2 off len l r =>
    cases l with
    | none =>
      refine ⟨lo, ol, used, fl, nf, _, rfl, ⟨?_, h.posLo, h.posUsed, ?_, ?_⟩, hw⟩
      · simpa [hold, lExt] using h.cov
      · simpa [olHold, lExt] using h.perm
      · simpa [freeHold, hold, lExt] using h.cnt
    | some k =>
      dsimp only [delLO]
      by_cases hm : (off - k, k) ∈ lo
      · rw [if_pos hm]
        refine ⟨_, ol, used, fl, nf, _, rfl, ⟨?_, ?_, h.posUsed, ?_, ?_⟩, hw⟩
        · intro b
          have := h.cov b
          have := cover_erase hm b
          simp only [cover_cons, hold, cover_nil, lExt, cover_append] at *
          omega
        · intro y hy
          exact h.posLo y (List.mem_of_mem_erase hy)
        · rw [List.perm_iff_count]
          intro a
          have h1 := count_of_perm (List.perm_cons_erase hm) a
          have h2 := hperm a
          simp only [List.count_append, List.count_cons, olHold, List.count_nil, lExt] at *
          omega
        · have := h.cnt
          have := size_erase hm
          simp only [freeHold, hold, size_cons, size_nil, lExt, size_append] at *
          omega
      · rw [if_neg hm]
        refine ⟨lo, ol, used, fl, nf, _, rfl, ⟨h.cov, h.posLo, h.posUsed, h.perm, h.cnt⟩, ?_⟩
        exact ⟨hw.1, hw.2.2⟩
  | f2b off len r =>
    cases r with
    | none =>
      refine ⟨lo, ol, used, fl, nf, _, rfl, ⟨?_, h.posLo, h.posUsed, ?_, ?_⟩, hw.1⟩
      · simpa [hold, rExt] using h.cov
      · simpa [olHold, rExt] using h.perm
      · simpa [freeHold, hold, rExt] using h.cnt
    | some k =>
      have hk := hw.2 k rfl
      have : insLO (off + len, k) lo = some ((off + len, k) :: lo) := by
        apply insLO_eq
        apply h.notLo
        exact cover_mem (by simp [hold, rExt]) hk
      dsimp only
      rw [this]
      refine ⟨_, ol, used, fl, nf, _, rfl, ⟨?_, ?_, h.posUsed, ?_, ?_⟩, hw.1⟩
      · intro b
        have := h.cov b
        simp only [cover_cons, hold, cover_nil, rExt] at *
        omega
      · intro y hy
        rcases List.mem_cons.1 hy with rfl | hy
        · exact hk
        · exact h.posLo y hy
      · rw [List.perm_iff_count]
        intro a
        have h2 := hperm a
        simp only [List.count_append, List.count_cons, olHold, List.count_nil, rExt] at *
        omega
      · have := h.cnt
        simp only [freeHold, hold, size_cons, size_nil, rExt] at *
        omega
  | f3 off len l r =>
    cases r with
    | none =>
      refine ⟨lo, ol, used, fl, nf, _, rfl, ⟨?_, h.posLo, h.posUsed, ?_, ?_⟩, hw⟩
      · simpa [hold, lExt] using h.cov
      · simpa [olHold, rExt] using h.perm
      · simpa [freeHold, hold, lExt] using h.cnt
    | some k =>
      have hk := hw.2.2 k rfl
      have hin : (off + len, k) ∈ ol := by
        rw [h.perm.mem_iff]; simp [olHold, rExt]
      obtain ⟨t, ht, htp⟩ := delOL_eq hin (by
        intro y hy hy1
        dsimp only at hy1
        have hc : 0 < cover (hold (.f3 off len l (some k))) y.1 := by
          rw [hy1]
          exact cover_mem (x := (off + len, k)) (by simp [hold, rExt]) hk
        have := h.own ho hy hc
        simp only [olHold, List.mem_append, rExt, List.mem_singleton] at this
        rcases this with rfl | this
        · rfl
        · cases l with
          | none => simp [lExt] at this
          | some m =>
            simp only [lExt, List.mem_singleton] at this
            have := hw.1
            subst y; dsimp only at hy1; omega)
      dsimp only at ht ⊢
      rw [ht]
      refine ⟨lo, _, used, fl, nf, _, rfl, ⟨h.cov, h.posLo, h.posUsed, ?_, h.cnt⟩, hw⟩
      rw [List.perm_iff_count]
      intro a
      have h2 := hperm a
      have h3 := count_of_perm htp a
      simp only [List.count_append, List.count_cons, olHold, rExt, List.count_nil] at *
      omega
  | f4 off len l r =>
    cases l with
    | none =>
      refine ⟨lo, ol, used, fl, nf, _, rfl, ⟨?_, h.posLo, h.posUsed, ?_, ?_⟩, ?_⟩
      · intro b
        have := h.cov b
        cases r with
        | none => simpa [hold, lExt, rExt] using this
        | some k =>
          simp only [cover_cons, hold, cover_nil, rExt, lExt, cover_append, Option.getD_some] at *
          rw [← this]
          split <;> split <;> split <;> omega
      · simpa [olHold, lExt] using h.perm
      · have := h.cnt
        cases r with
        | none => simpa [freeHold, hold, lExt, rExt] using this
        | some k =>
          simp only [freeHold, hold, size_cons, size_nil, rExt, lExt, size_append,
            Option.getD_some] at *
          omega
      · have := hw.1
        simp only [WF]; omega
    | some k =>
      have hk := hw.2.1 k rfl
      have hin : (off - k, k) ∈ ol := by
        rw [h.perm.mem_iff]; simp [olHold, lExt]
      obtain ⟨t, ht, htp⟩ := delOL_eq hin (by
        intro y hy hy1
        dsimp only at hy1
        have hc : 0 < cover (hold (.f4 off len (some k) r)) y.1 := by
          rw [hy1]
          exact cover_mem (x := (off - k, k)) (by simp [hold, lExt]) hk.1
        have := h.own ho hy hc
        simpa only [olHold, lExt, List.mem_singleton] using this)
      dsimp only at ht ⊢
      rw [ht]
      refine ⟨lo, _, used, fl, nf, _, rfl, ⟨?_, h.posLo, h.posUsed, ?_, ?_⟩, ?_⟩
      · intro b
        have := h.cov b
        cases r with
        | none =>
          simp only [cover_cons, hold, cover_nil, rExt, lExt, cover_append, Option.getD_none] at *
          rw [← this]
          split <;> split <;> split <;> omega
        | some m =>
          simp only [cover_cons, hold, cover_nil, rExt, lExt, cover_append, Option.getD_some] at *
          rw [← this]
          split <;> split <;> split <;> split <;> omega
      · rw [List.perm_iff_count]
        intro a
        have h2 := hperm a
        have h3 := count_of_perm htp a
        simp only [List.count_append, List.count_cons, olHold, lExt, List.count_nil] at *
        omega
      · have := h.cnt
        cases r with
        | none =>
          simp only [freeHold, hold, size_cons, size_nil, rExt, lExt, size_append,
            Option.getD_none] at *
          omega
        | some m =>
          simp only [freeHold, hold, size_cons, size_nil, rExt, lExt, size_append,
            Option.getD_some] at *
          omega
      · have := hw.1
        simp only [WF]; omega
  | f5 off len =>
    dsimp only
    simp only [WF] at hw
    have : insOL (off, len) ol = some ((off, len) :: ol) := by
      apply insOL_eq
      intro y hy hy1
      have hc : 0 < cover (hold (.f5 off len)) y.1 := by
        rw [hy1]; simp only [hold, cover_cons, cover_nil]; split <;> omega
      have := h.own ho hy hc
      simp [olHold] at this
    rw [this]
    refine ⟨lo, _, used, fl, nf, _, rfl, ⟨h.cov, h.posLo, h.posUsed, ?_, h.cnt⟩, hw⟩
    rw [List.perm_iff_count]
    intro a
    have h2 := hperm a
    simp only [List.count_append, List.count_cons, olHold, List.count_nil] at *
    omega
  | f6 off len =>
    dsimp only
    simp only [WF] at hw
    have : insLO (off, len) lo = some ((off, len) :: lo) := by
      apply insLO_eq
      apply h.notLo
      exact cover_mem (by simp [hold]) hw
    rw [this]
    refine ⟨_, ol, used, fl, nf, _, rfl, ⟨?_, ?_, h.posUsed, ?_, ?_⟩, trivial⟩
    · intro b
      have := h.cov b
      simp only [cover_cons, hold, cover_nil] at *
      omega
    · intro y hy
      rcases List.mem_cons.1 hy with rfl | hy
      · exact hw
      · exact h.posLo y hy
    · rw [List.perm_iff_count]
      intro a
      have h2 := hperm a
      simp only [List.count_append, List.count_cons, olHold, List.count_nil] at *
      omega
    · have := h.cnt
      simp only [freeHold, hold, size_cons, size_nil] at *
      omega
  | fatal => exact hw.elim

end Verif.Extents
