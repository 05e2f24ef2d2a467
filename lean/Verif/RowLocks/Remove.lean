/-
What `remove_redundant_row_locks` and `lock_undo_callback` do to the chain.
-/
import Verif.RowLocks.Walk

namespace Verif.RowLocks

/-- Where the last lock before the current header is stored. -/
def LastAt (last : Nat) (P : List Hdr) : Prop :=
  ∃ P1 P2, P = P1 ++ P2 ∧ (∀ h ∈ P2.tail, h.lockOnly = false) ∧
    ((P1 = [] ∧ last = 0) ∨ ∃ P' j, P1 = P' ++ [j] ∧ j.loc = last)

/-- Where the header after `P` is stored. -/
def atOf (P : List Hdr) : Nat := ((P.map (fun h => h.loc)).getLast?).getD 0

theorem atOf_nil : atOf [] = 0 := rfl

theorem atOf_snoc (P : List Hdr) (h : Hdr) : atOf (P ++ [h]) = h.loc := by
  simp [atOf]

theorem LastAt.nil : LastAt 0 [] := ⟨[], [], rfl, by simp, Or.inl ⟨rfl, rfl⟩⟩

theorem LastAt.push {last : Nat} {P : List Hdr} {h : Hdr} (H : LastAt last P) :
    LastAt (if h.lockOnly = true then atOf P else last) (P ++ [h]) := by
  split
  · next hl =>
    refine ⟨P, [h], rfl, by simp, ?_⟩
    rcases List.eq_nil_or_concat P with e | ⟨P', k, e⟩
    · subst e; exact Or.inl ⟨rfl, rfl⟩
    · subst e
      refine Or.inr ⟨P', k, by simp, ?_⟩
      rw [List.concat_eq_append, atOf_snoc]
  · next hl =>
    have hl' : h.lockOnly = false := by simpa using hl
    obtain ⟨P1, P2, e, h2, h3⟩ := H
    refine ⟨P1, P2 ++ [h], by simp [e], ?_, h3⟩
    intro k hk
    cases P2 with
    | nil => simp at hk
    | cons p P2 =>
      simp at hk
      rcases hk with hk | hk
      · exact h2 k (by simpa using hk)
      · subst hk; exact hl'

/-- Removing a lock from the middle of the chain. -/
theorem remove_spec {fuel last : Nat} {page c g : Hdr} {r : Recs} {P R t : List Hdr}
    (H : Stored r (P ++ c :: g :: R)) (F : Flags (P ++ c :: g :: R))
    (hh : P ++ c :: g :: R = page :: t) (hf : (P ++ c :: g :: R).length < fuel)
    (hl : LastAt last P) (hc : c.lockOnly = true) (hP : P ≠ []) :
    ∃ P', Same P P' ∧
      (∃ t', P' ++ g :: R =
        (if (!c.chl) = true then cleanFlag fuel page r last else (page, r)).1 :: t') ∧
      Stored (setHdr (if (!c.chl) = true then cleanFlag fuel page r last else (page, r)).2
        (atOf P) g) (P' ++ g :: R) ∧
      Flags (P' ++ g :: R) ∧
      (∀ l, ((if (!c.chl) = true then cleanFlag fuel page r last else (page, r)).2 l).tup =
        (r l).tup) := by
  -- the general step: unlink in a chain with the same front
  have fin : ∀ (P' : List Hdr) (pg : Hdr) (r' : Recs) (t' : List Hdr), Same P P' →
      P' ++ c :: g :: R = pg :: t' → Stored r' (P' ++ c :: g :: R) →
      (∃ t'', P' ++ g :: R = pg :: t'') ∧ Stored (setHdr r' (atOf P) g) (P' ++ g :: R) := by
    intro P' pg r' t' same e st
    have eat : atOf P = atOf P' := by unfold atOf; rw [same.locs]
    rcases List.eq_nil_or_concat P' with e' | ⟨Q, k, e'⟩
    · subst e'
      have := same.length
      simp at this
      exact absurd this.symm (by simpa using hP)
    · rw [List.concat_eq_append] at e'
      subst e'
      rw [eat, atOf_snoc]
      have st' : Stored r' (Q ++ k :: c :: g :: R) := by simpa using st
      have := Stored.unlink (g' := g) st' rfl
      refine ⟨?_, by simpa using this⟩
      cases Q with
      | nil => simp at e; exact ⟨g :: R, by rw [← e.1]; rfl⟩
      | cons q Q => simp at e; exact ⟨_, by rw [← e.1]; rfl⟩
  by_cases hcc : c.chl = false
  · have hcond : (!c.chl) = true := by rw [hcc]; rfl
    rw [if_pos hcond]
    obtain ⟨P1, P2, e, h2, h3⟩ := hl
    have hf2 : Flags (P1 ++ (P2 ++ c :: g :: R)) := by
      rw [e] at F; simpa using F
    have eclr : clr (P2 ++ c :: g :: R) = P2.map unchl ++ c :: g :: R :=
      clr_flagged (Flags.above (Flags.drop hf2) (Or.inl hc)) hcc
    have plain : ∀ x ∈ g :: R, x.lockOnly = false ∧ x.chl = false :=
      (Flags.drop (P := P2) (Flags.drop hf2)).1 hcc
    have same : Same P (P1 ++ P2.map unchl) := by
      rw [e]; exact Red.append (.refl _) (.map _)
    -- cleaning
    have cl : (∃ t', P1 ++ clr (P2 ++ c :: g :: R) = (cleanFlag fuel page r last).1 :: t') ∧
        Stored (cleanFlag fuel page r last).2 (P1 ++ clr (P2 ++ c :: g :: R)) ∧
        (∀ l, ((cleanFlag fuel page r last).2 l).tup = (r l).tup) := by
      rcases h3 with ⟨e1, e0⟩ | ⟨P', j, e1, ej⟩
      · subst e1 e0
        simp only [List.nil_append] at e
        subst e
        simp only [List.nil_append]
        rw [hh] at H hf ⊢
        obtain ⟨t', h1, h2, h3, h4⟩ := cleanFlag_page fuel page t r H (by simp at hf; omega)
        exact ⟨⟨t', h1⟩, h2, h3⟩
      · subst e1 ej e
        have H' : Stored r (P' ++ j :: (P2 ++ c :: g :: R)) := by simpa using H
        obtain ⟨h1, h2, h3, h4⟩ := cleanFlag_below fuel page P' j (P2 ++ c :: g :: R) r H'
          (by simp at hf ⊢; omega) (by simp)
        refine ⟨?_, by simpa using h2, h3⟩
        rw [h1]
        cases P' with
        | nil =>
          simp at hh
          exact ⟨clr (P2 ++ c :: g :: R), by rw [hh.1]; rfl⟩
        | cons p P' =>
          simp at hh
          exact ⟨_, by rw [hh.1]; rfl⟩
    obtain ⟨⟨t', c1⟩, c2, c3⟩ := cl
    rw [eclr] at c1 c2
    have eA : (P1 ++ P2.map unchl) ++ c :: g :: R = P1 ++ (P2.map unchl ++ c :: g :: R) := by simp
    obtain ⟨f1, f2⟩ := fin (P1 ++ P2.map unchl) _ _ t' same (by rw [eA]; exact c1)
      (by rw [eA]; exact c2)
    refine ⟨P1 ++ P2.map unchl, same, f1, f2, ?_, c3⟩
    have eB : (P1 ++ P2.map unchl) ++ g :: R = P1 ++ (P2.map unchl ++ g :: R) := by simp
    rw [eB]
    have pl : ∀ x ∈ P2.tail.map unchl ++ g :: R, x.lockOnly = false ∧ x.chl = false := by
      intro x hx
      rcases List.mem_append.1 hx with hx | hx
      · obtain ⟨y, hy, ey⟩ := List.mem_map.1 hx
        subst ey
        exact ⟨h2 y hy, rfl⟩
      · exact plain x hx
    refine Flags.weaken hf2 ?_ ?_
    · cases P2 with
      | nil => exact Flags.plain plain
      | cons p P2 => exact ⟨fun _ => pl, Flags.plain pl⟩
    · intro h
      have := (h c (by simp)).1
      rw [hc] at this; cases this
  · have hcond : ¬ ((!c.chl) = true) := by simp [hcc]
    rw [if_neg hcond]
    obtain ⟨f1, f2⟩ := fin P _ _ t (.refl _) hh H
    refine ⟨P, .refl _, f1, f2, ?_, fun _ => rfl⟩
    refine Flags.weaken F (Flags.drop (P := P) F).2 ?_
    intro h
    have := (h c (by simp)).1
    rw [hc] at this; cases this

/-! ### `remove_redundant_row_locks` -/

/-- The locks `remove_redundant_row_locks` looks for. -/
def ownWeak (me mode : Nat) (h : Hdr) : Bool :=
  h.lockOnly && decide (h.oxid = me) && decide (h.mode ≤ mode)

/-- Without such locks ahead nothing is written. -/
theorem Purge.loop_idle {fuel0 : Nat} {st : Nat → Status} {me mode : Nat} :
    ∀ (n : Nat) (p : Purge) (R : List Hdr), Stored p.recs (p.cur :: R) →
      (∀ h ∈ p.cur :: R, ownWeak me mode h = false) →
      (Purge.loop fuel0 st me mode n p).page = p.page ∧
      (Purge.loop fuel0 st me mode n p).recs = p.recs
  | 0, _, _, _, _ => ⟨rfl, rfl⟩
  | n + 1, p, R, H, N => by
    unfold Purge.loop
    split
    · next hc =>
      simp only [Bool.and_eq_true, decide_eq_true_eq] at hc
      have hn := N p.cur (by simp)
      unfold ownWeak at hn
      have ht : p.turn fuel0 me mode =
          { p with
              last := if p.cur.lockOnly then p.prev else p.last
              prev := p.cur.loc
              cur := (p.recs p.cur.loc).hdr } := by
        unfold Purge.turn
        dsimp only
        rw [if_neg (by rw [hn]; simp)]
      cases R with
      | nil => exact absurd H hc.2
      | cons g R =>
        have hg := H.2.1
        have ih := Purge.loop_idle (fuel0 := fuel0) (st := st) (me := me) (mode := mode) n
          (p.turn fuel0 me mode) R
          (by rw [ht]; dsimp only; rw [hg]; exact H.2.2.2)
          (by
            rw [ht]; dsimp only; rw [hg]
            exact fun h hh => N h (List.mem_cons_of_mem _ hh))
        rw [ht] at ih ⊢
        exact ih
    · exact ⟨rfl, rfl⟩

/-- The result of removing a lock. -/
structure Cut (hit : Hdr → Prop) (r0 : Recs) (L0 : List Hdr) (page : Hdr) (r : Recs)
    (L : List Hdr) : Prop where
  head : ∃ t, L = page :: t
  stored : Stored r L
  flags : Flags L
  red : Red hit L0 L
  none : ∀ h ∈ L, ¬ hit h
  tup : ∀ l, (r l).tup = (r0 l).tup

theorem Purge.loop_spec {fuel0 : Nat} {st : Nat → Status} {me mode : Nat} {ipLow : Bool}
    (run : st me = .running) :
    ∀ (n : Nat) (p : Purge) (P R : List Hdr), (∃ t, P ++ p.cur :: R = p.page :: t) →
      Stored p.recs (P ++ p.cur :: R) → Flags (P ++ p.cur :: R) →
      Sound st ipLow (P ++ p.cur :: R) → (P ++ p.cur :: R).length < fuel0 → R.length < n →
      p.prev = atOf P → LastAt p.last P → (∀ h ∈ P, ownWeak me mode h = false) →
      ∃ L, Cut (fun h => ownWeak me mode h = true) p.recs (P ++ p.cur :: R)
        (Purge.loop fuel0 st me mode n p).page (Purge.loop fuel0 st me mode n p).recs L
  | 0, _, _, _, _, _, _, _, _, hn, _, _, _ => by omega
  | n + 1, p, P, R, hd, H, F, S, len, hn, hprev, hlast, N => by
    have hst := Stored.drop H
    by_cases hc : ((!isFinished st p.cur.oxid || p.cur.chl) && decide (p.cur.loc ≠ 0)) = true
    · have hc' := hc
      simp only [Bool.and_eq_true, decide_eq_true_eq] at hc'
      obtain ⟨g, R', eR⟩ : ∃ g R', R = g :: R' := by
        cases R with
        | nil => exact absurd hst hc'.2
        | cons g R' => exact ⟨g, R', rfl⟩
      subst eR
      have hg : (p.recs p.cur.loc).hdr = g := hst.2.1
      unfold Purge.loop
      rw [if_pos hc]
      by_cases hit : ownWeak me mode p.cur = true
      · -- the lock is removed
        have hit' := hit
        unfold ownWeak at hit'
        have h3 := hit'
        simp only [Bool.and_eq_true, decide_eq_true_eq] at h3
        obtain ⟨⟨hlock, hown⟩, hmode⟩ := h3
        have hdel := (Del.drop S.del).1 (Or.inl hlock)
        -- no other own locks
        have one := (List.pairwise_append.1 S.oneLock).2.1
        rw [List.pairwise_cons] at one
        have N' : ∀ h ∈ g :: R', ownWeak me mode h = false := by
          intro h hh
          cases hw : ownWeak me mode h with
          | false => rfl
          | true =>
            unfold ownWeak at hw
            simp only [Bool.and_eq_true, decide_eq_true_eq] at hw
            have := one.1 h hh (by rw [hw.1.2]; exact run) hlock hw.1.1
            exact absurd (by rw [hown, hw.1.2]) this
        by_cases hp : p.prev = 0
        · -- on the page
          have hP : P = [] := by
            rcases List.eq_nil_or_concat P with e | ⟨Q, k, e⟩
            · exact e
            · rw [List.concat_eq_append] at e
              rw [e, atOf_snoc] at hprev
              rw [e] at H
              have hk : Stored p.recs (k :: p.cur :: g :: R') :=
                Stored.drop (P := Q) (by simpa using H)
              exact absurd (hprev ▸ hp) hk.1
          subst hP
          have hpc : p.page = p.cur := by
            obtain ⟨t, e⟩ := hd
            simp at e
            exact e.1.symm
          have ht : p.turn fuel0 me mode =
              (⟨{ g with chl := p.cur.chl }, p.recs, g, p.cur.loc,
                if p.cur.lockOnly then p.prev else p.last⟩ : Purge) := by
            unfold Purge.turn
            dsimp only
            rw [if_pos hit', if_pos hp, hg, hpc]
            have : p.cur.deleted = g.deleted := by rw [hdel.1, hdel.2]
            rw [this]
          have idle := Purge.loop_idle (fuel0 := fuel0) (st := st) (me := me) (mode := mode) n
            (p.turn fuel0 me mode) R' (by rw [ht]; exact hst.2.2.2) (by rw [ht]; exact N')
          refine ⟨{ g with chl := p.cur.chl } :: R', ?_, ?_, ?_, ?_, ?_, ?_⟩
          · rw [idle.1, ht]; exact ⟨R', rfl⟩
          · rw [idle.2, ht]
            exact Stored.head (g := g) hst.2.2.2 rfl
          · have F' : Flags (p.cur :: g :: R') := F
            refine ⟨?_, F'.2.2⟩
            intro h x hx
            exact F'.1 h x (List.mem_cons_of_mem _ hx)
          · exact .skip hit (.keep _ (.refl _))
          · intro h hh
            rcases List.mem_cons.1 hh with e | hh
            · have := N' g (by simp)
              rw [e]
              unfold ownWeak at this ⊢
              dsimp only
              rw [this]; simp
            · rw [N' h (List.mem_cons_of_mem _ hh)]; simp
          · intro l
            rw [idle.2, ht]
        · -- in an undo record
          have hP : P ≠ [] := by
            intro e; subst e; exact hp hprev
          obtain ⟨t, hh⟩ := hd
          obtain ⟨P', same, ⟨t', r1⟩, r2, r3, r4⟩ :=
            remove_spec (fuel := fuel0) (last := p.last) H F hh len hlast hlock hP
          have ht : p.turn fuel0 me mode =
              (⟨(if (!p.cur.chl) = true then cleanFlag fuel0 p.page p.recs p.last
                  else (p.page, p.recs)).1,
                setHdr (if (!p.cur.chl) = true then cleanFlag fuel0 p.page p.recs p.last
                  else (p.page, p.recs)).2 (atOf P) g, g, p.cur.loc,
                if p.cur.lockOnly then p.prev else p.last⟩ : Purge) := by
            unfold Purge.turn
            dsimp only
            rw [if_pos hit', if_neg hp, hg, hprev]
          have idle := Purge.loop_idle (fuel0 := fuel0) (st := st) (me := me) (mode := mode) n
            (p.turn fuel0 me mode) R' (by rw [ht]; exact Stored.drop r2) (by rw [ht]; exact N')
          refine ⟨P' ++ g :: R', ?_, ?_, r3, ?_, ?_, ?_⟩
          · rw [idle.1, ht]; exact ⟨t', r1⟩
          · rw [idle.2, ht]; exact r2
          · exact Red.append (same.mono (fun _ f => f.elim)) (.skip hit (.refl _))
          · intro h hh
            rcases List.mem_append.1 hh with hh | hh
            · obtain ⟨k, hk, e⟩ := same.mem h hh
              have := N k hk
              rw [e]
              unfold ownWeak at this ⊢
              dsimp only
              rw [this]; simp
            · rw [N' h hh]; simp
          · intro l
            rw [idle.2, ht]
            dsimp only
            rw [setHdr_tup]
            exact r4 l
      · -- go on
        have hit0 : ownWeak me mode p.cur = false := by simpa using hit
        have hit' := hit0
        unfold ownWeak at hit'
        have ht : p.turn fuel0 me mode =
            (⟨p.page, p.recs, g, p.cur.loc, if p.cur.lockOnly then p.prev else p.last⟩ : Purge) := by
          unfold Purge.turn
          dsimp only
          rw [if_neg (by rw [hit']; simp), hg]
        have eL : P ++ p.cur :: g :: R' = (P ++ [p.cur]) ++ g :: R' := by simp
        rw [ht]
        have ih := Purge.loop_spec (fuel0 := fuel0) (mode := mode) (ipLow := ipLow) run n
          (⟨p.page, p.recs, g, p.cur.loc, if p.cur.lockOnly then p.prev else p.last⟩ : Purge)
          (P ++ [p.cur]) R'
        dsimp only at ih
        rw [← eL] at ih
        refine ih hd H F S len (by simp at hn; omega) (atOf_snoc _ _).symm ?_ ?_
        · rw [hprev]; exact hlast.push
        · intro h hh
          rcases List.mem_append.1 hh with hh | hh
          · exact N h hh
          · rw [List.mem_singleton.1 hh]; exact hit0
    · -- the loop ends
      unfold Purge.loop
      rw [if_neg hc]
      refine ⟨_, hd, H, F, .refl _, ?_, fun _ => rfl⟩
      intro h hh
      rcases List.mem_append.1 hh with hh | hh
      · rw [N h hh]; simp
      · -- nothing ahead
        intro hw
        unfold ownWeak at hw
        simp only [Bool.and_eq_true, decide_eq_true_eq] at hw
        have hmem : h ∈ P ++ p.cur :: R := List.mem_append_right _ hh
        have hlc := S.lockLoc h hmem hw.1.1
        have hc : (¬ (isFinished st p.cur.oxid = false) ∧ ¬ (p.cur.chl = true)) ∨
            ¬ (p.cur.loc ≠ 0) := by
          simp only [Bool.and_eq_true, Bool.or_eq_true, Bool.not_eq_true', decide_eq_true_eq] at hc
          by_cases a : isFinished st p.cur.oxid = false
          · exact Or.inr (fun h => hc ⟨Or.inl a, h⟩)
          · by_cases b : p.cur.chl = true
            · exact Or.inr (fun h => hc ⟨Or.inr b, h⟩)
            · exact Or.inl ⟨a, b⟩
        rcases hc with hc | hc
        · have fin : isFinished st p.cur.oxid = true := by simpa using hc.1
          have chl : p.cur.chl = false := by simpa using hc.2
          rcases List.mem_cons.1 hh with e | hh
          · subst e
            obtain ⟨c, ec⟩ := isFinished_iff.1 fin
            rw [hw.1.2, run] at ec; cases ec
          · have := ((Flags.drop F).1 chl h hh).1
            rw [hw.1.1] at this; cases this
        · have h0 : p.cur.loc = 0 := by omega
          cases R with
          | nil =>
            rw [List.mem_singleton.1 hh] at hlc
            exact hlc h0
          | cons g R => exact hst.1 h0

/-- **`remove_redundant_row_locks`** removes the own locks that are not
stronger, and nothing else. -/
theorem removeRedundant_spec {fuel : Nat} {st : Nat → Status} {me mode : Nat} {ipLow : Bool}
    {page : Hdr} {r : Recs} {t : List Hdr} (run : st me = .running)
    (H : Stored r (page :: t)) (F : Flags (page :: t)) (S : Sound st ipLow (page :: t))
    (hf : t.length + 1 < fuel) :
    ∃ L, Cut (fun h => ownWeak me mode h = true) r (page :: t)
      (removeRedundant fuel st me mode page r).1 (removeRedundant fuel st me mode page r).2 L := by
  have := Purge.loop_spec (fuel0 := fuel) (mode := mode) (ipLow := ipLow) run fuel
    { page := page, recs := r, cur := page, prev := 0, last := 0 } [] t ⟨t, rfl⟩ H F S
    (by simp; omega) (by omega) rfl LastAt.nil (by simp)
  exact this

/-! ### `lock_undo_callback` -/

/-- The lock `lock_undo_callback` looks for. -/
def thatLock (x l : Nat) (h : Hdr) : Bool :=
  h.lockOnly && decide (h.oxid = x) && decide (h.loc = l)

/-- Without that lock ahead nothing is written. -/
theorem Unlock.loop_idle {fuel0 : Nat} {st : Nat → Status} {x l : Nat} :
    ∀ (n : Nat) (p : Unlock) (R : List Hdr), Stored p.recs (p.cur :: R) →
      (∀ h ∈ p.cur :: R, thatLock x l h = false) →
      (Unlock.loop fuel0 st x l n p).page = p.page ∧
      (Unlock.loop fuel0 st x l n p).recs = p.recs
  | 0, _, _, _, _ => ⟨rfl, rfl⟩
  | n + 1, p, R, H, N => by
    unfold Unlock.loop
    split
    · next hc =>
      simp only [Bool.and_eq_true, decide_eq_true_eq] at hc
      have hn := N p.cur (by simp)
      unfold thatLock at hn
      have ht : p.turn fuel0 x l =
          { p with
              last := if p.cur.lockOnly then p.at_ else p.last
              at_ := p.cur.loc
              cur := (p.recs p.cur.loc).hdr } := by
        unfold Unlock.turn
        dsimp only
        rw [if_neg (by rw [hn]; simp)]
      cases R with
      | nil => exact absurd H hc.2
      | cons g R =>
        have hg := H.2.1
        have ih := Unlock.loop_idle (fuel0 := fuel0) (st := st) (x := x) (l := l) n
          (p.turn fuel0 x l) R
          (by rw [ht]; dsimp only; rw [hg]; exact H.2.2.2)
          (by
            rw [ht]; dsimp only; rw [hg]
            exact fun h hh => N h (List.mem_cons_of_mem _ hh))
        rw [ht] at ih ⊢
        exact ih
    · exact ⟨rfl, rfl⟩

theorem Unlock.loop_spec {fuel0 : Nat} {st : Nat → Status} {x l : Nat} {ipLow : Bool}
    (run : st x = .running) :
    ∀ (n : Nat) (p : Unlock) (P R : List Hdr), (∃ t, P ++ p.cur :: R = p.page :: t) →
      Stored p.recs (P ++ p.cur :: R) → Flags (P ++ p.cur :: R) →
      Sound st ipLow (P ++ p.cur :: R) → (P ++ p.cur :: R).length < fuel0 → R.length < n →
      p.at_ = atOf P → LastAt p.last P → (∀ h ∈ P, thatLock x l h = false) →
      (P = [] → p.last = 0) →
      ∃ L, Cut (fun h => thatLock x l h = true) p.recs (P ++ p.cur :: R)
        (Unlock.loop fuel0 st x l n p).page (Unlock.loop fuel0 st x l n p).recs L
  | 0, _, _, _, _, _, _, _, _, hn, _, _, _, _ => by omega
  | n + 1, p, P, R, hd, H, F, S, len, hn, hprev, hlast, N, hl0 => by
    have hst := Stored.drop H
    by_cases hc : ((!isFinished st p.cur.oxid || p.cur.chl) && decide (p.cur.loc ≠ 0)) = true
    · have hc' := hc
      simp only [Bool.and_eq_true, decide_eq_true_eq] at hc'
      obtain ⟨g, R', eR⟩ : ∃ g R', R = g :: R' := by
        cases R with
        | nil => exact absurd hst hc'.2
        | cons g R' => exact ⟨g, R', rfl⟩
      subst eR
      have hg : (p.recs p.cur.loc).hdr = g := hst.2.1
      unfold Unlock.loop
      rw [if_pos hc]
      by_cases hit : thatLock x l p.cur = true
      · -- the lock is removed
        have hit' := hit
        unfold thatLock at hit'
        have h3 := hit'
        simp only [Bool.and_eq_true, decide_eq_true_eq] at h3
        obtain ⟨⟨hlock, hown⟩, hloc⟩ := h3
        have hdel := (Del.drop S.del).1 (Or.inl hlock)
        have N' : ∀ h ∈ g :: R', thatLock x l h = false := by
          intro h hh
          have := Stored.below hst h hh
          unfold thatLock
          have : decide (h.loc = l) = false := by simp; omega
          rw [this]; simp
        have edel : p.cur.deleted = g.deleted := by rw [hdel.1, hdel.2]
        by_cases hp : p.at_ = 0
        · -- on the page
          have hP : P = [] := by
            rcases List.eq_nil_or_concat P with e | ⟨Q, k, e⟩
            · exact e
            · rw [List.concat_eq_append] at e
              rw [e, atOf_snoc] at hprev
              rw [e] at H
              have hk : Stored p.recs (k :: p.cur :: g :: R') :=
                Stored.drop (P := Q) (by simpa using H)
              exact absurd (hprev ▸ hp) hk.1
          subst hP
          have hl1 := hl0 rfl
          have hpc : p.page = p.cur := by
            obtain ⟨t, e⟩ := hd
            simp at e
            exact e.1.symm
          have hclean : (if (!p.cur.chl) = true then cleanFlag fuel0 p.page p.recs p.last
              else (p.page, p.recs)) = (p.page, p.recs) := by
            split
            · next hch =>
              have : p.cur.chl = false := by simpa using hch
              unfold cleanFlag
              rw [if_pos hl1, hpc, if_pos this]
            · rfl
          have ht : (p.turn fuel0 x l).page = g ∧ (p.turn fuel0 x l).recs = p.recs ∧
              (p.turn fuel0 x l).cur = g := by
            unfold Unlock.turn
            dsimp only
            rw [if_pos hit', hclean]
            dsimp only
            rw [if_pos hp, hg, hpc]
            dsimp only
            rw [edel]
            exact ⟨rfl, rfl, rfl⟩
          obtain ⟨ht1, ht2, ht3⟩ := ht
          have idle := Unlock.loop_idle (fuel0 := fuel0) (st := st) (x := x) (l := l) n
            (p.turn fuel0 x l) R' (by rw [ht2, ht3]; exact hst.2.2.2) (by rw [ht3]; exact N')
          refine ⟨g :: R', ?_, ?_, ?_, ?_, ?_, ?_⟩
          · rw [idle.1, ht1]; exact ⟨R', rfl⟩
          · rw [idle.2, ht2]
            exact hst.2.2.2
          · exact Flags.drop (P := [p.cur]) F
          · exact .skip hit (.refl _)
          · intro h hh
            rw [N' h hh]; simp
          · intro l
            rw [idle.2, ht2]
        · -- in an undo record
          have hP : P ≠ [] := by
            intro e; subst e; exact hp hprev
          obtain ⟨t, hh⟩ := hd
          obtain ⟨P', same, ⟨t', r1⟩, r2, r3, r4⟩ :=
            remove_spec (fuel := fuel0) (last := p.last) H F hh len hlast hlock hP
          have ht : (p.turn fuel0 x l).page =
                (if (!p.cur.chl) = true then cleanFlag fuel0 p.page p.recs p.last
                  else (p.page, p.recs)).1 ∧
              (p.turn fuel0 x l).recs =
                setHdr (if (!p.cur.chl) = true then cleanFlag fuel0 p.page p.recs p.last
                  else (p.page, p.recs)).2 (atOf P) g ∧
              (p.turn fuel0 x l).cur = g := by
            unfold Unlock.turn
            dsimp only
            rw [if_pos hit']
            generalize (if (!p.cur.chl) = true then cleanFlag fuel0 p.page p.recs p.last
                  else (p.page, p.recs)) = cl
            rw [if_neg hp, hg, hprev]
            dsimp only
            rw [edel]
            exact ⟨rfl, rfl, rfl⟩
          obtain ⟨ht1, ht2, ht3⟩ := ht
          have idle := Unlock.loop_idle (fuel0 := fuel0) (st := st) (x := x) (l := l) n
            (p.turn fuel0 x l) R' (by rw [ht2, ht3]; exact Stored.drop r2) (by rw [ht3]; exact N')
          refine ⟨P' ++ g :: R', ?_, ?_, r3, ?_, ?_, ?_⟩
          · rw [idle.1, ht1]; exact ⟨t', r1⟩
          · rw [idle.2, ht2]; exact r2
          · exact Red.append (same.mono (fun _ f => f.elim)) (.skip hit (.refl _))
          · intro h hh
            rcases List.mem_append.1 hh with hh | hh
            · obtain ⟨k, hk, e⟩ := same.mem h hh
              have := N k hk
              rw [e]
              unfold thatLock at this ⊢
              dsimp only
              rw [this]; simp
            · rw [N' h hh]; simp
          · intro l
            rw [idle.2, ht2, setHdr_tup]
            exact r4 l
      · -- go on
        have hit0 : thatLock x l p.cur = false := by simpa using hit
        have hit' := hit0
        unfold thatLock at hit'
        have ht : p.turn fuel0 x l =
            (⟨p.page, p.recs, g, p.cur.loc, if p.cur.lockOnly then p.at_ else p.last⟩ : Unlock) := by
          unfold Unlock.turn
          dsimp only
          rw [if_neg (by rw [hit']; simp), hg]
        have eL : P ++ p.cur :: g :: R' = (P ++ [p.cur]) ++ g :: R' := by simp
        rw [ht]
        have ih := Unlock.loop_spec (fuel0 := fuel0) (l := l) (ipLow := ipLow) run n
          (⟨p.page, p.recs, g, p.cur.loc, if p.cur.lockOnly then p.at_ else p.last⟩ : Unlock)
          (P ++ [p.cur]) R'
        dsimp only at ih
        rw [← eL] at ih
        refine ih hd H F S len (by simp at hn; omega) (atOf_snoc _ _).symm ?_ ?_ (by simp)
        · rw [hprev]; exact hlast.push
        · intro h hh
          rcases List.mem_append.1 hh with hh | hh
          · exact N h hh
          · rw [List.mem_singleton.1 hh]; exact hit0
    · -- the loop ends
      unfold Unlock.loop
      rw [if_neg hc]
      refine ⟨_, hd, H, F, .refl _, ?_, fun _ => rfl⟩
      intro h hh
      rcases List.mem_append.1 hh with hh | hh
      · rw [N h hh]; simp
      · -- nothing ahead
        intro hw
        unfold thatLock at hw
        simp only [Bool.and_eq_true, decide_eq_true_eq] at hw
        have hmem : h ∈ P ++ p.cur :: R := List.mem_append_right _ hh
        have hlc := S.lockLoc h hmem hw.1.1
        have hc : (¬ (isFinished st p.cur.oxid = false) ∧ ¬ (p.cur.chl = true)) ∨
            ¬ (p.cur.loc ≠ 0) := by
          simp only [Bool.and_eq_true, Bool.or_eq_true, Bool.not_eq_true', decide_eq_true_eq] at hc
          by_cases a : isFinished st p.cur.oxid = false
          · exact Or.inr (fun h => hc ⟨Or.inl a, h⟩)
          · by_cases b : p.cur.chl = true
            · exact Or.inr (fun h => hc ⟨Or.inr b, h⟩)
            · exact Or.inl ⟨a, b⟩
        rcases hc with hc | hc
        · have fin : isFinished st p.cur.oxid = true := by simpa using hc.1
          have chl : p.cur.chl = false := by simpa using hc.2
          rcases List.mem_cons.1 hh with e | hh
          · subst e
            obtain ⟨c, ec⟩ := isFinished_iff.1 fin
            rw [hw.1.2, run] at ec; cases ec
          · have := ((Flags.drop F).1 chl h hh).1
            rw [hw.1.1] at this; cases this
        · have h0 : p.cur.loc = 0 := by omega
          cases R with
          | nil =>
            rw [List.mem_singleton.1 hh] at hlc
            exact hlc h0
          | cons g R => exact hst.1 h0

/-- **`lock_undo_callback`** removes the lock of the record, if it is there, and
nothing else. -/
theorem lockUndo_spec {fuel : Nat} {st : Nat → Status} {x l : Nat} {ipLow : Bool}
    {row : Row} {r : Recs} {t : List Hdr} (run : st x = .running)
    (H : Stored r (row.hdr :: t)) (F : Flags (row.hdr :: t)) (S : Sound st ipLow (row.hdr :: t))
    (hf : t.length + 1 < fuel) :
    ∃ page L, (lockUndo fuel st x l row r).1 = some { row with hdr := page } ∧
      Cut (fun h => thatLock x l h = true) r (row.hdr :: t) page (lockUndo fuel st x l row r).2 L := by
  obtain ⟨L, h⟩ := Unlock.loop_spec (fuel0 := fuel) (l := l) (ipLow := ipLow) run fuel
    { page := row.hdr, recs := r, cur := row.hdr, at_ := 0, last := 0 } [] t ⟨t, rfl⟩ H F S
    (by simp; omega) (by omega) rfl LastAt.nil (by simp) (fun _ => rfl)
  exact ⟨_, L, rfl, h⟩

end Verif.RowLocks
