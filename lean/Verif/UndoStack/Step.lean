import Verif.UndoStack.Refine

/-! # Each event, on the undo stack and on lists of changes -/

namespace Verif.UndoStack

/-- The state with the stack replaced by lists of changes. -/
structure Abs where
  subs : List Nat
  last : Nat
  ret : Bool
  min : Nat
  g : List Change
  gs : List (List Change)

/-- An event on lists of changes: the calls made and the new state. -/
def astep (A : Abs) : Op → List Call × Abs
  | .change _ t => ([], { A with ret := true, g := ⟨t, false⟩ :: A.g })
  | .onc _ t => ([], { A with ret := true, g := ⟨t, true⟩ :: A.g })
  | .retain => ([], { A with ret := true })
  | .start _ =>
    match A.subs with
    | [] => ([], A)
    | p :: r =>
      let B : Abs := { A with subs := (A.last + 1) :: p :: r, last := A.last + 1 }
      if A.ret then
        if A.min = 0 then ([], { B with min := p, g := [], gs := [A.g] })
        else if A.min ≤ p then ([], { B with g := [], gs := A.g :: A.gs })
        else ([], B)
      else ([], B)
  | .release =>
    match A.subs with
    | _ :: p :: r =>
      let B : Abs := { A with subs := p :: r }
      match A.gs with
      | h :: hs => ([], { B with g := A.g ++ h, gs := hs })
      | [] => ([], B)
    | _ => ([], A)
  | .rollback _ =>
    match A.subs with
    | _ :: p :: r =>
      let B : Abs := { A with subs := p :: r }
      match A.gs with
      | h :: hs => (undoAll A.g, { B with g := h, gs := hs })
      | [] => (undoAll A.g, { B with g := [] })
    | _ => ([], A)
  | .commit =>
    (finish .preCommit (A.g ++ A.gs.flatten) ++ finish .commit (A.g ++ A.gs.flatten),
      ⟨[1], 1, false, 0, [], []⟩)
  | .abort => (undoAll (A.g ++ A.gs.flatten), ⟨[1], 1, false, 0, [], []⟩)

/-- The state `s` holds the lists of `A`. -/
structure Inv (s : St) (A : Abs) (ro : List (List Call)) : Prop where
  subs : s.subs = A.subs
  last : s.lastSub = A.last
  ret : s.retained = A.ret
  min : s.minParent = A.min
  ok : s.failed = false
  fresh : ∀ x, s.next ≤ x → s.mem x = none
  locLt : lt s.location s.next
  ocLt : lt s.onCommit s.next
  brLt : lt s.branch s.next
  lv : Lv s.mem A.min A.subs s.location s.onCommit s.subxact A.g A.gs
  br : Br s.mem s.branch ro
  dec : A.subs.Pairwise (· > ·)
  top : ∀ x, x ∈ A.subs → x ≤ A.last ∧ x ≠ 0
  clean : A.ret = false → A.min = 0 ∧ A.g = [] ∧ A.gs = []

theorem init_inv (n : Nat) : Inv (St.init n) ⟨[1], 1, false, 0, [], []⟩ [] where
  subs := rfl
  last := rfl
  ret := rfl
  min := rfl
  ok := rfl
  fresh := fun _ _ => rfl
  locLt := lt_none _
  ocLt := lt_none _
  brLt := lt_none _
  lv := .base _ _ _ _ _ (fun _ _ _ _ => Or.inr rfl) (.nil _ _)
  br := .nil
  dec := by simp
  top := by simp
  clean := fun _ => ⟨rfl, rfl, rfl⟩

theorem ext_put {m : Nat → Option Item} {x : Nat} {i : Item} (h : m x = none) :
    Ext m (put m x i) := by
  intro y j hy
  unfold put
  split
  next e => subst e; rw [h] at hy; cases hy
  next => exact hy

theorem put_self (m : Nat → Option Item) (x : Nat) (i : Item) : put m x i x = some i := by
  simp [put]

theorem put_fresh {m : Nat → Option Item} {n gap : Nat} {i : Item}
    (h : ∀ x, n ≤ x → m x = none) : ∀ x, n + gap + 1 ≤ x → put m (n + gap) i x = none := by
  intro x hx
  unfold put
  rw [if_neg (by omega)]
  exact h x (by omega)

/-- Lemmas about a state whose log got one more item. -/
theorem inv_change {s : St} {A : Abs} {ro : List (List Call)} (h : Inv s A ro) (gap t : Nat) :
    Inv (addChange s gap t) { A with ret := true, g := ⟨t, false⟩ :: A.g } ro := by
  have he : Ext s.mem (put s.mem (s.next + gap) (.change t s.location)) :=
    ext_put (h.fresh _ (by omega))
  refine
    { subs := h.subs, last := h.last, ret := rfl, min := h.min, ok := h.ok,
      fresh := put_fresh h.fresh, locLt := lt_some (by dsimp [addChange]; omega),
      ocLt := h.ocLt.mono (by dsimp [addChange]; omega),
      brLt := h.brLt.mono (by dsimp [addChange]; omega),
      lv := ?_, br := h.br.ext he, dec := h.dec, top := h.top, clean := by simp }
  have hs : Seg (put s.mem (s.next + gap) (.change t s.location)) (some (s.next + gap))
      s.onCommit s.location s.onCommit ([⟨t, false⟩] ++ []) :=
    .plain _ (.change t s.location) _ _ _ _ (put_self _ _ _) rfl (h.locLt.mono (by omega))
      (h.ocLt.mono (by omega)) (.nil _ _)
  exact Lv.prepend hs (h.lv.ext he)

theorem inv_onc {s : St} {A : Abs} {ro : List (List Call)} (h : Inv s A ro) (gap t : Nat) :
    Inv (addOnc s gap t) { A with ret := true, g := ⟨t, true⟩ :: A.g } ro := by
  have he : Ext s.mem (put s.mem (s.next + gap) (.onc t s.location s.onCommit)) :=
    ext_put (h.fresh _ (by omega))
  refine
    { subs := h.subs, last := h.last, ret := rfl, min := h.min, ok := h.ok,
      fresh := put_fresh h.fresh, locLt := lt_some (by dsimp [addOnc]; omega),
      ocLt := lt_some (by dsimp [addOnc]; omega),
      brLt := h.brLt.mono (by dsimp [addOnc]; omega),
      lv := ?_, br := h.br.ext he, dec := h.dec, top := h.top, clean := by simp }
  have hs : Seg (put s.mem (s.next + gap) (.onc t s.location s.onCommit)) (some (s.next + gap))
      (some (s.next + gap)) s.location s.onCommit [⟨t, true⟩] :=
    .onc _ t _ _ _ _ _ (put_self _ _ _) (h.locLt.mono (by omega)) (.nil _ _)
  exact Lv.prepend hs (h.lv.ext he)

theorem inv_retain {s : St} {A : Abs} {ro : List (List Call)} (h : Inv s A ro) :
    Inv { s with retained := true } { A with ret := true } ro :=
  { subs := h.subs, last := h.last, ret := rfl, min := h.min, ok := h.ok, fresh := h.fresh,
    locLt := h.locLt, ocLt := h.ocLt, brLt := h.brLt, lv := h.lv, br := h.br, dec := h.dec,
    top := h.top, clean := by simp }

theorem inv_start {s : St} {A : Abs} {ro : List (List Call)} (h : Inv s A ro) (gap : Nat) :
    Inv (startSub s gap) (astep A (.start gap)).2 ro := by
  cases hA : A.subs with
  | nil =>
    have hs : s.subs = [] := by rw [h.subs, hA]
    simpa [startSub, hs, astep, hA] using h
  | cons p r =>
    have hs : s.subs = p :: r := by rw [h.subs, hA]
    have hp := h.top p (by simp [hA])
    have hdec : ((A.last + 1) :: p :: r).Pairwise (· > ·) := by
      rw [List.pairwise_cons]
      refine ⟨fun x hx => ?_, by rw [← hA]; exact h.dec⟩
      have := (h.top x (by rw [hA]; exact hx)).1
      omega
    have htop : ∀ x, x ∈ (A.last + 1) :: p :: r → x ≤ A.last + 1 ∧ x ≠ 0 := by
      intro x hx
      rcases List.mem_cons.mp hx with hx | hx
      · omega
      · have := h.top x (by rw [hA]; exact hx)
        omega
    have he : Ext s.mem (put s.mem (s.next + gap) (.sub s.location s.subxact p)) :=
      ext_put (h.fresh _ (by omega))
    have hlv := h.lv
    rw [hA] at hlv
    cases hr : A.ret with
    | false =>
      obtain ⟨c1, c2, c3⟩ := h.clean hr
      have hsr : s.retained = false := by rw [h.ret, hr]
      simp only [startSub, hs, hsr, astep, hA, hr, Bool.false_eq_true, if_false]
      refine
        { subs := by simp [h.last], last := by simp [h.last], ret := by simp [hsr, hr],
          min := h.min, ok := h.ok,
          fresh := h.fresh, locLt := h.locLt, ocLt := h.ocLt, brLt := h.brLt, lv := ?_,
          br := h.br, dec := hdec, top := htop, clean := fun _ => h.clean hr }
      have hw := h.lv.whole
      rw [c2, c3] at hw ⊢
      exact .base _ _ _ _ _ (fun _ _ _ _ => Or.inr c1) hw
    | true =>
      have hsr : s.retained = true := by rw [h.ret, hr]
      have hsg : Seg (put s.mem (s.next + gap) (.sub s.location s.subxact p))
          (some (s.next + gap)) s.onCommit (some (s.next + gap)) s.onCommit [] := .nil _ _
      have hsg1 : Seg (put s.mem (s.next + gap) (.sub s.location s.subxact p))
          (some (s.next + gap)) s.onCommit s.location s.onCommit ([] ++ []) :=
        .plain _ (.sub s.location s.subxact p) _ _ _ _ (put_self _ _ _) rfl
          (h.locLt.mono (by omega)) (h.ocLt.mono (by omega)) (.nil _ _)
      by_cases hm : A.min = 0
      · have hsm : s.minParent = 0 := by rw [h.min, hm]
        simp only [startSub, hs, hsr, hsm, astep, hA, hr, hm, addSub, if_true]
        refine
          { subs := by simp [h.last], last := by simp [h.last], ret := by simp [hsr, hr],
            min := rfl, ok := h.ok,
            fresh := put_fresh h.fresh, locLt := lt_some (by dsimp; omega),
            ocLt := h.ocLt.mono (by dsimp; omega), brLt := h.brLt.mono (by dsimp; omega),
            lv := ?_, br := h.br.ext he, dec := hdec, top := htop,
            clean := fun e => by simp [hr] at e }
        have hgs : A.gs = [] := by
          cases hq : A.gs with
          | nil => rfl
          | cons =>
            obtain ⟨_, _, _, _, _, _, _, _, _, _, h2, _⟩ := hlv.level_inv hq
            contradiction
        have hw := h.lv.whole
        rw [hgs] at hw
        simp only [List.flatten_nil, List.append_nil] at hw
        refine .level _ p r _ _ _ _ _ s.location s.subxact _ _ (Nat.le_refl _) hp.2 hsg
          (put_self _ _ _) (h.locLt.mono (by omega)) (h.ocLt.mono (by omega))
          (.base _ _ _ _ _ ?_ (hw.ext he))
        intro a q r' e
        cases e
        left
        have hd := h.dec
        rw [hA] at hd
        exact (List.pairwise_cons.mp hd).1 q (by simp)
      · have hsm : s.minParent ≠ 0 := by rw [h.min]; exact hm
        by_cases hle : A.min ≤ p
        · simp only [startSub, hs, hsr, hsm, astep, hA, hr, hm, addSub, if_true, if_false, hle]
          refine
            { subs := by simp [h.last], last := by simp [h.last], ret := by simp [hsr, hr],
              min := h.min, ok := h.ok,
              fresh := put_fresh h.fresh, locLt := lt_some (by dsimp; omega),
              ocLt := h.ocLt.mono (by dsimp; omega), brLt := h.brLt.mono (by dsimp; omega),
              lv := ?_, br := h.br.ext he, dec := hdec, top := htop,
              clean := fun e => by simp [hr] at e }
          exact .level _ p r _ _ _ _ _ s.location s.subxact _ _ hle hm hsg
            (put_self _ _ _) (h.locLt.mono (by omega)) (h.ocLt.mono (by omega)) (hlv.ext he)
        · simp only [startSub, hs, hsr, hsm, astep, hA, hr, hm, addSub, if_true, if_false, hle]
          refine
            { subs := by simp [h.last], last := by simp [h.last], ret := by simp [hsr, hr],
              min := h.min, ok := h.ok,
              fresh := put_fresh h.fresh, locLt := lt_some (by dsimp; omega),
              ocLt := h.ocLt.mono (by dsimp; omega), brLt := h.brLt.mono (by dsimp; omega),
              lv := ?_, br := h.br.ext he, dec := hdec, top := htop,
              clean := fun e => by simp [hr] at e }
          have hgs : A.gs = [] := by
            cases hq : A.gs with
            | nil => rfl
            | cons =>
              obtain ⟨_, p', r', _, _, _, _, e, _, h1, _⟩ := hlv.level_inv hq
              have hd := h.dec
              rw [hA, e] at hd
              have := (List.pairwise_cons.mp hd).1 p' (by simp)
              cases e
              omega
          have hw := hsg1.trans (h.lv.whole.ext he)
          rw [hgs] at hw ⊢
          simp only [List.flatten_nil, List.append_nil, List.nil_append] at hw
          refine .base _ _ _ _ _ ?_ hw
          intro a q r' e
          cases e
          left
          show p < A.min
          omega

theorem inv_release {s : St} {A : Abs} {ro : List (List Call)} (h : Inv s A ro) :
    Inv (commitSub s) (astep A .release).2 ro := by
  have hlv := h.lv
  have hS := h.subs
  rcases hA : A.subs with _ | ⟨a, _ | ⟨p, r⟩⟩
  · rw [hA] at hS
    simpa [commitSub, hS, astep, hA] using h
  · rw [hA] at hS
    simpa [commitSub, hS, astep, hA] using h
  · rw [hA] at hS hlv
    have hdec := h.dec
    rw [hA] at hdec
    have htop : ∀ x, x ∈ p :: r → x ≤ A.last ∧ x ≠ 0 :=
      fun x hx => h.top x (by rw [hA]; exact List.mem_cons_of_mem _ hx)
    cases hg : A.gs with
    | nil =>
      obtain ⟨h1, h2⟩ := hlv.base_inv hg
      have hc := h1 a p r rfl
      have hn : ¬ (s.minParent ≤ p ∧ s.minParent ≠ 0) := by rw [h.min]; omega
      simp only [commitSub, hS, if_neg hn, astep, hA, hg]
      refine
        { subs := rfl, last := h.last, ret := h.ret, min := h.min, ok := h.ok, fresh := h.fresh,
          locLt := h.locLt, ocLt := h.ocLt, brLt := h.brLt, lv := ?_, br := h.br,
          dec := (List.pairwise_cons.mp hdec).2, top := htop, clean := ?_ }
      · dsimp only
        refine .base _ _ _ _ _ ?_ h2
        intro a' q r' e
        cases e
        have := (List.pairwise_cons.mp (List.pairwise_cons.mp hdec).2).1 q (by simp)
        omega
      · intro e
        exact ⟨(h.clean e).1, (h.clean e).2.1, rfl⟩
    | cons f fs =>
      obtain ⟨_, _, _, z, oc', pz, q, e, hsx, h1, h2, h3, h4, h5, h6, h7⟩ := hlv.level_inv hg
      cases e
      have hc : s.minParent ≤ p ∧ s.minParent ≠ 0 := by rw [h.min]; exact ⟨h1, h2⟩
      have hsr : search s.mem (some z) p = some (some z, q) := by
        simp [search, h4]
      simp only [commitSub, hS, if_pos hc, hsx, hsr, astep, hA, hg]
      refine
        { subs := rfl, last := h.last, ret := h.ret, min := h.min, ok := h.ok, fresh := h.fresh,
          locLt := h.locLt, ocLt := h.ocLt, brLt := h.brLt, lv := ?_, br := h.br,
          dec := (List.pairwise_cons.mp hdec).2, top := htop, clean := ?_ }
      · have hz := Seg.plain z (.sub pz q p) oc' _ _ _ h4 rfl h5 h6 (.nil _ _)
        have hz' := h3.trans hz
        simp only [Item.chg, List.append_nil] at hz'
        exact Lv.prepend hz' h7
      · intro e
        have := (h.clean e).1
        contradiction

/-- The branch item after a walk down to `to`. -/
theorem inv_rollbackTo {s : St} {A : Abs} {ro : List (List Call)} (h : Inv s A ro) (gap : Nat)
    {to toSub oc' : Loc} {f g : List Change} {gs : List (List Change)} {a p : Nat} {r : List Nat}
    (hA : A.subs = a :: p :: r) (hr : A.ret = true) (hs : Seg s.mem s.location s.onCommit to oc' f)
    (hoc : lt oc' s.next)
    (hl : ∀ m' loc', Ext s.mem m' → Seg m' loc' oc' to oc' [] →
      Lv m' A.min (p :: r) loc' oc' toSub g gs) :
    (rollbackTo s gap to toSub).calls = s.calls ++ undoAll f ∧
    Inv { rollbackTo s gap to toSub with subs := p :: r }
      { A with subs := p :: r, g := g, gs := gs } (undoAll f :: ro) := by
  have hw := walk_seg hs (s.next + 1) (h.locLt.mono (by omega))
  have he : Ext s.mem (put s.mem (s.next + gap) (.branch to s.location s.branch)) :=
    ext_put (h.fresh _ (by omega))
  simp only [rollbackTo, hw, true_and]
  have hto : lt to s.next := below_prev hs h.locLt
  have hdec := h.dec
  rw [hA] at hdec
  refine
    { subs := rfl, last := h.last, ret := h.ret, min := h.min, ok := h.ok,
      fresh := put_fresh h.fresh, locLt := lt_some (by dsimp; omega),
      ocLt := hoc.mono (by dsimp; omega), brLt := lt_some (by dsimp; omega),
      lv := ?_, br := ?_, dec := (List.pairwise_cons.mp hdec).2,
      top := fun x hx => h.top x (by rw [hA]; exact List.mem_cons_of_mem _ hx),
      clean := fun e => by simp [hr] at e }
  · refine hl _ _ he ?_
    exact Seg.plain _ (.branch to s.location s.branch) _ _ _ _ (put_self _ _ _) rfl
      (hto.mono (by omega)) (hoc.mono (by omega)) (.nil _ _)
  · exact .cons _ to s.location s.branch s.onCommit oc' f ro (put_self _ _ _) (hs.ext he)
      (h.locLt.mono (by omega)) (h.brLt.mono (by omega)) (h.br.ext he)

theorem inv_rollback {s : St} {A : Abs} {ro : List (List Call)} (h : Inv s A ro) (gap : Nat) :
    (abortSub s gap).calls = s.calls ++ (astep A (.rollback gap)).1 ∧
    ∃ ro', ro'.flatten = (astep A (.rollback gap)).1 ++ ro.flatten ∧
      Inv (abortSub s gap) (astep A (.rollback gap)).2 ro' := by
  have hlv := h.lv
  have hS := h.subs
  rcases hA : A.subs with _ | ⟨a, _ | ⟨p, r⟩⟩
  · rw [hA] at hS
    simp only [abortSub, hS, astep, hA, List.append_nil, true_and]
    exact ⟨ro, by simp, h⟩
  · rw [hA] at hS
    simp only [abortSub, hS, astep, hA, List.append_nil, true_and]
    exact ⟨ro, by simp, h⟩
  · rw [hA] at hS hlv
    have hdec := h.dec
    rw [hA] at hdec
    cases hr : A.ret with
    | false =>
      obtain ⟨c1, c2, c3⟩ := h.clean hr
      have hsr : s.retained = false := by rw [h.ret, hr]
      simp only [abortSub, hS, hsr, Bool.false_eq_true, if_false, astep, hA, c3, c2, undoAll,
        List.map_nil, List.append_nil, true_and]
      refine ⟨ro, by simp, ?_⟩
      refine
        { subs := rfl, last := h.last, ret := by dsimp; rw [← h.ret, hsr], min := h.min, ok := h.ok, fresh := h.fresh,
          locLt := h.locLt, ocLt := h.ocLt, brLt := h.brLt, lv := ?_, br := h.br,
          dec := (List.pairwise_cons.mp hdec).2,
          top := fun x hx => h.top x (by rw [hA]; exact List.mem_cons_of_mem _ hx),
          clean := fun _ => ⟨c1, rfl, by first | rfl | exact c3⟩ }
      have hw := h.lv.whole
      rw [c2, c3] at hw
      exact .base _ _ _ _ _ (fun _ _ _ _ => Or.inr c1) hw
    | true =>
      have hsr : s.retained = true := by rw [h.ret, hr]
      cases hg : A.gs with
      | nil =>
        obtain ⟨h1, h2⟩ := hlv.base_inv hg
        have hc := h1 a p r rfl
        have hn : p < s.minParent ∨ s.minParent = 0 := by rw [h.min]; exact hc
        have key := inv_rollbackTo (to := none) (toSub := none) (g := []) (gs := []) h gap hA hr h2
          (lt_none _) (by
            intro m' loc' _ hseg
            refine .base _ _ _ _ _ ?_ hseg
            intro a' q r' e
            cases e
            have := (List.pairwise_cons.mp (List.pairwise_cons.mp hdec).2).1 q (by simp)
            omega)
        simp only [abortSub, hS, hsr, if_true, if_pos hn, astep, hA, hg]
        refine ⟨key.1, _, ?_, by simpa [hg] using key.2⟩
        simp
      | cons f fs =>
        obtain ⟨_, _, _, z, oc', pz, q, e, hsx, h1, h2, h3, h4, h5, h6, h7⟩ := hlv.level_inv hg
        cases e
        have hn : ¬ (p < s.minParent ∨ s.minParent = 0) := by rw [h.min]; omega
        have hsr' : search s.mem (some z) p = some (some z, q) := by
          simp [search, h4]
        have hzn : z < s.next := by
          have := below_prev h3 h.locLt
          exact this z rfl
        have key := inv_rollbackTo (to := some z) (toSub := q) (g := f) (gs := fs) h gap hA hr h3
          (h6.mono (by omega)) (by
            intro m' loc' hm' hseg
            have hz := Seg.plain z (.sub pz q p) oc' _ _ _ (hm' _ _ h4) rfl h5 h6 (.nil _ _)
            have hz' := hseg.trans hz
            simp only [Item.chg, List.append_nil] at hz'
            exact Lv.prepend hz' (h7.ext hm'))
        simp only [abortSub, hS, hsr, if_true, if_neg hn, hsx, hsr', astep, hA, hg]
        refine ⟨key.1, _, ?_, key.2⟩
        simp

theorem inv_reset {s : St} {A : Abs} {ro : List (List Call)} (h : Inv s A ro) (c : List Call) :
    Inv (reset { s with calls := c }) ⟨[1], 1, false, 0, [], []⟩ [] where
  subs := rfl
  last := rfl
  ret := rfl
  min := rfl
  ok := h.ok
  fresh := h.fresh
  locLt := lt_none _
  ocLt := lt_none _
  brLt := lt_none _
  lv := .base _ _ _ _ _ (fun _ _ _ _ => Or.inr rfl) (.nil _ _)
  br := .nil
  dec := by simp
  top := by simp
  clean := fun _ => ⟨rfl, rfl, rfl⟩

theorem inv_commit {s : St} {A : Abs} {ro : List (List Call)} (h : Inv s A ro) :
    (commit s).calls = s.calls ++ (astep A .commit).1 ∧
    Inv (commit s) (astep A .commit).2 [] := by
  have hw := h.lv.whole
  obtain ⟨r1, h1⟩ := walk_finish (g := .preCommit) (by simp) hw rfl rfl (s.next + 1)
    (h.locLt.mono (by omega))
  obtain ⟨r2, h2⟩ := walk_finish (g := .commit) (by simp) hw rfl rfl (s.next + 1)
    (h.locLt.mono (by omega))
  simp only [commit, h1, h2, astep]
  exact ⟨by simp [reset], inv_reset h _⟩

theorem inv_abort {s : St} {A : Abs} {ro : List (List Call)} (h : Inv s A ro) :
    (abort s).calls = s.calls ++ (astep A .abort).1 ∧
    Inv (abort s) (astep A .abort).2 [] := by
  have hw := walk_seg h.lv.whole (s.next + 1) (h.locLt.mono (by omega))
  simp only [abort, hw, astep]
  exact ⟨by simp [reset], inv_reset h _⟩

end Verif.UndoStack
