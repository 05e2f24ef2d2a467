import Verif.SeqScan.WalkLemmas

/-!
# The walk: the ranges read and those still to be read cover each key once
-/

namespace Verif.SeqScan

/-- The iterator for the next item would begin at the left end of the tree, though the scan has been
there: the leftmost page has been loaded again. -/
def St.again (s : St) : Bool :=
  match s.cur with
  | none => false
  | some b => b.loc == b.start && b.page.low.isNone && b.prev.isSome

/-- The first item has the key the page was found by. -/
def BufOk (b : Buf) : Prop := b.page.ok = true ∧ b.start ≤ b.loc ∧ (b.loc = b.start → b.page.bound b.start = b.prev)

/-- The invariant. -/
def Inv (s : St) : Prop :=
  match s.cur with
  | none => s.next = none ∧ s.done = []
  | some b => BufOk b ∧
    match s.next with
    | none => ∀ k, times k s.done + times k (b.page.rest b.loc) = if below b.page.high k = true then 1 else 0
    | some b' => b.page.high.isSome = true ∧ BufOk b' ∧
      ∀ k, times k s.done + times k (b.page.rest b.loc) + times k (b'.page.rest b'.loc) =
        if below b'.page.high k = true then 1 else 0

theorem claimed_item {b : Buf} (hb : BufOk b)
    (hs : ¬ (b.loc = b.start ∧ b.page.low = none ∧ b.prev.isSome = true)) : b.claimed = b.page.item b.loc := by
  unfold Buf.claimed Page.item
  by_cases he : b.loc = b.start
  · have h1 := hb.2.2 he
    rw [if_neg (by simp [he])]
    congr 1
    cases hl : b.page.low with
    | some x => rw [if_pos (by simp), ← h1, he]
    | none =>
      rw [if_neg (by simp), he, h1]
      cases hp : b.prev with
      | none => rfl
      | some y => exact absurd ⟨he, hl, by simp [hp]⟩ hs
  · rw [if_pos he]

theorem inv_init : Inv init := ⟨rfl, rfl⟩

theorem step_inv {s s' : St} {e : Ev} (hi : Inv s) (hs : step s e = some s') (hc : e = .claim true → s.again = false) :
    Inv s' := by
  obtain ⟨cur, next, done⟩ := s
  cases e with
  | load p =>
    cases cur with
    | none =>
      obtain ⟨h1, h2⟩ : next = none ∧ done = [] := hi
      subst h1 h2
      simp only [step] at hs
      split at hs
      · rename_i b hb
        injection hs with hs
        subst hs
        unfold loadFirst at hb
        split at hb
        · rename_i hc
          injection hb with hb
          subst hb
          simp only [Bool.and_eq_true, Option.isNone_iff_eq_none] at hc
          refine ⟨⟨hc.1, Nat.le_refl _, fun _ => ?_⟩, ?_⟩
          · exact hc.2
          · intro k
            have := times_rest hc.1 k _ 0 rfl (by unfold Page.count; omega)
            have h0 : p.bound 0 = none := hc.2
            rw [h0] at this
            dsimp only
            rw [this]
            simp [times_nil, above]
        · cases hb
      · cases hs
    | some b =>
      cases next with
      | some b' => simp only [step] at hs; cases hs
      | none =>
        simp only [step] at hs
        split at hs
        · cases hs
        · rename_i h hh
          split at hs
          · cases hs
          · rename_i b' rs hl
            injection hs with hs
            subst hs
            obtain ⟨hb, ht⟩ : BufOk b ∧ _ := hi
            have h3 := loadNext_start hl
            have hp := loadNext_times hl 0
            refine ⟨hb, by rw [hh]; rfl, ⟨hp.1 ▸ hp.2.1, h3.2.1, fun he => ?_⟩, ?_⟩
            · rw [hp.1, h3.2.2 he, h3.1]
            · intro k
              have ht := ht k
              have h4 := (loadNext_times hl k).2.2.2
              dsimp only at ht ⊢
              rw [hp.1, times_append]
              rw [hh] at ht
              have e1 : below (some h) k = decide (k < h) := rfl
              rw [e1] at ht
              have h5 : below p.high h = true := hp.2.2.1
              by_cases hk : k < h
              · have h6 : below p.high k = true := by
                  cases hy : p.high with
                  | none => rfl
                  | some y =>
                    rw [hy] at h5
                    simp only [below, decide_eq_true_eq] at *
                    omega
                rw [if_neg (by omega)] at h4
                rw [if_pos h6]
                simp only [hk, decide_true, if_true] at ht
                omega
              · simp only [hk, decide_false, Bool.false_eq_true, if_false] at ht
                have h7 : h ≤ k := by omega
                simp only [h7, true_and] at h4
                omega
  | claim it =>
    cases cur with
    | none => simp only [step] at hs; cases hs
    | some b =>
      simp only [step] at hs
      split at hs
      · rename_i hlt
        injection hs with hs
        subst hs
        obtain ⟨hb, ht⟩ : BufOk b ∧ _ := hi
        have hr : (if it = true then b.claimed else b.page.item b.loc) = b.page.item b.loc := by
          cases it with
          | false => rfl
          | true =>
            have h1 := hc rfl
            rw [if_pos rfl]
            refine claimed_item hb (fun h2 => ?_)
            simp only [St.again, h2.1, h2.2.1, h2.2.2] at h1
            simp at h1
        rw [hr]
        have hsum : ∀ k, times k (done ++ [b.page.item b.loc]) + times k (b.page.rest (b.loc + 1)) =
            times k done + times k (b.page.rest b.loc) := by
          intro k
          rw [times_append, rest_cons hlt, times_cons, times_cons, times_nil]
          omega
        have hb' : BufOk { b with loc := b.loc + 1 } := by
          refine ⟨hb.1, Nat.le_succ_of_le hb.2.1, fun he => ?_⟩
          have := hb.2.1
          dsimp only at he
          omega
        cases next with
        | none =>
          refine ⟨hb', ?_⟩
          intro k
          have := ht k
          have := hsum k
          dsimp only at *
          omega
        | some b' =>
          refine ⟨hb', ht.1, ht.2.1, ?_⟩
          intro k
          have := ht.2.2 k
          have := hsum k
          dsimp only at *
          omega
      · cases hs
  | flip =>
    cases cur with
    | none => cases next <;> (simp only [step] at hs; cases hs)
    | some b =>
      cases next with
      | none => simp only [step] at hs; cases hs
      | some b' =>
        simp only [step] at hs
        split at hs
        · rename_i hle
          injection hs with hs
          subst hs
          obtain ⟨_, _, hb', ht⟩ : BufOk b ∧ _ ∧ BufOk b' ∧ _ := hi
          refine ⟨hb', ?_⟩
          intro k
          have := ht k
          dsimp only at *
          rw [rest_nil hle, times_nil] at this
          omega
        · cases hs

theorem run_append : ∀ (a b : List Ev) (s : St),
    run s (a ++ b) = match run s a with | none => none | some s' => run s' b := by
  intro a
  induction a with
  | nil => intro b s; rfl
  | cons e a ih =>
    intro b s
    simp only [List.cons_append, run]
    cases step s e with
    | none => rfl
    | some s1 => exact ih b s1

theorem run_inv : ∀ (evs : List Ev) (s s' : St), Inv s → run s evs = some s' →
    (∀ pre post t, evs = pre ++ .claim true :: post → run s pre = some t → t.again = false) → Inv s' := by
  intro evs
  induction evs with
  | nil => intro s s' hi hr _; injection hr with hr; subst hr; exact hi
  | cons e evs ih =>
    intro s s' hi hr hc
    simp only [run] at hr
    cases hs : step s e with
    | none => rw [hs] at hr; cases hr
    | some s1 =>
      rw [hs] at hr
      refine ih s1 s' (step_inv hi hs ?_) hr ?_
      · intro he
        exact hc [] evs s (by rw [he]; rfl) rfl
      · intro pre post t he ht
        refine hc (e :: pre) post t (by rw [he]; rfl) ?_
        simp only [run, hs]
        exact ht

/-- No iterator begins at the left end of the tree when the scan has been there; to be computed. -/
def never (s : St) : List Ev → Bool
  | [] => true
  | e :: es =>
    !(e == .claim true && s.again) &&
    match step s e with
    | none => true
    | some s' => never s' es

theorem never_of : ∀ (evs : List Ev) (s : St), never s evs = true →
    ∀ pre post t, evs = pre ++ .claim true :: post → run s pre = some t → t.again = false := by
  intro evs
  induction evs with
  | nil => intro s _ pre post t he; cases pre <;> cases he
  | cons e evs ih =>
    intro s h pre post t he hr
    simp only [never, Bool.and_eq_true] at h
    cases pre with
    | nil =>
      injection he with h1 h2
      injection hr with hr
      subst hr h1
      have := h.1
      simpa using this
    | cons u pre =>
      injection he with h1 h2
      subst h1
      simp only [run] at hr
      cases hs : step s e with
      | none => rw [hs] at hr; cases hr
      | some s1 =>
        rw [hs] at hr
        have h3 := h.2
        rw [hs] at h3
        exact ih s1 h3 pre post t h2 hr

/-- Pages found by a key are not leftmost, if no page loaded after the first is. -/
def Later (s : St) : Prop :=
  (∀ b, s.cur = some b → b.prev.isSome = true → b.page.low.isSome = true) ∧
  (∀ b, s.next = some b → b.prev.isSome = true → b.page.low.isSome = true)

theorem step_later {s s' : St} {e : Ev} (hl : Later s) (hs : step s e = some s')
    (hp : ∀ p, e = .load p → s.cur ≠ none → p.low ≠ none) : Later s' := by
  obtain ⟨cur, next, done⟩ := s
  cases e with
  | load p =>
    cases cur with
    | none =>
      simp only [step] at hs
      split at hs
      · rename_i b hb
        injection hs with hs; subst hs
        unfold loadFirst at hb
        split at hb
        · injection hb with hb; subst hb
          refine ⟨?_, hl.2⟩
          intro b1 hb1 h
          injection hb1 with hb1
          subst hb1
          cases h
        · cases hb
      · cases hs
    | some b =>
      cases next with
      | some b' => simp only [step] at hs; cases hs
      | none =>
        simp only [step] at hs
        split at hs
        · cases hs
        · rename_i h hh
          split at hs
          · cases hs
          · rename_i b' rs hl'
            injection hs with hs; subst hs
            refine ⟨hl.1, ?_⟩
            intro b1 hb1 _
            injection hb1 with hb1
            subst hb1
            rw [(loadNext_times hl' 0).1]
            have := hp p rfl (by simp)
            cases hlow : p.low with
            | none => exact absurd hlow this
            | some x => rfl
  | claim it =>
    cases cur with
    | none => simp only [step] at hs; cases hs
    | some b =>
      simp only [step] at hs
      split at hs
      · injection hs with hs; subst hs
        refine ⟨?_, hl.2⟩
        intro b1 hb1 h
        injection hb1 with hb1
        subst hb1
        exact hl.1 b rfl h
      · cases hs
  | flip =>
    cases cur with
    | none => cases next <;> (simp only [step] at hs; cases hs)
    | some b =>
      cases next with
      | none => simp only [step] at hs; cases hs
      | some b' =>
        simp only [step] at hs
        split at hs
        · injection hs with hs; subst hs
          exact ⟨fun b1 hb1 => hl.2 b1 hb1, fun b1 hb1 => by cases hb1⟩
        · cases hs

theorem run_later : ∀ (evs : List Ev) (s s' : St), Later s → run s evs = some s' →
    (∀ pre p post t, evs = pre ++ .load p :: post → run s pre = some t → t.cur ≠ none → p.low ≠ none) → Later s' := by
  intro evs
  induction evs with
  | nil => intro s s' hl hr _; injection hr with hr; subst hr; exact hl
  | cons e evs ih =>
    intro s s' hl hr hp
    simp only [run] at hr
    cases hs : step s e with
    | none => rw [hs] at hr; cases hr
    | some s1 =>
      rw [hs] at hr
      refine ih s1 s' (step_later hl hs ?_) hr ?_
      · intro p he hc
        exact hp [] p evs s (by rw [he]; rfl) rfl hc
      · intro pre p post t he ht
        refine hp (e :: pre) p post t (by rw [he]; rfl) ?_
        simp only [run, hs]
        exact ht

end Verif.SeqScan
