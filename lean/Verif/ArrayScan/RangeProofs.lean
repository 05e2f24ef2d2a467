import Verif.ArrayScan.ArrProofs

/-! # Arrays on leading columns: proofs -/

namespace Verif.ArrayScan

/-! ## The positions visited -/

theorem visits_unique {fwd : Bool} {nums : List Nat} {s : List Nat} {l l' : List (List Nat)}
    (h : Visits fwd nums s l) (h' : Visits fwd nums s l') : l = l' := by
  induction h generalizing l' with
  | stop e =>
    cases h' with
    | stop _ => rfl
    | step e' _ => rw [e] at e'; cases e'
  | step e _ ih =>
    cases h' with
    | stop e' => rw [e] at e'; cases e'
    | step e' v =>
      rw [e] at e'
      cases e'
      rw [ih v]

theorem advance_length (fwd : Bool) :
    ∀ (nums s : List Nat), s.length = nums.length → (advance fwd nums s).1.length = nums.length
  | [], [], _ => rfl
  | [], _ :: _, h => by simp at h
  | _ :: _, [], h => by simp at h
  | num :: nums, cur :: curs, h => by
    have ih := advance_length fwd nums curs (by simpa using h)
    have hl : curs.length = nums.length := by simpa using h
    unfold advance
    rcases hA : advance fwd nums curs with ⟨c', b⟩
    rw [hA] at ih
    cases b <;> simpa using ih

theorem advance_roll (fwd : Bool) :
    ∀ (nums s s' : List Nat), s.length = nums.length → advance fwd nums s = (s', false) →
      s' = start fwd nums
  | [], [], _, _, e => by simp [advance] at e; simp [start, e]
  | [], _ :: _, _, h, _ => by simp at h
  | _ :: _, [], _, h, _ => by simp at h
  | num :: nums, cur :: curs, s', h, e => by
    have ih := advance_roll fwd nums curs
    rw [advance] at e
    rcases hA : advance fwd nums curs with ⟨c', b⟩
    rw [hA] at e
    cases b
    · have := ih c' (by simpa using h) hA
      subst this
      simp only [Prod.mk.injEq] at e
      obtain ⟨e1, e2⟩ := e
      rw [← e1]
      have : (stepElem fwd num cur).1 = if fwd then 0 else num - 1 := by
        unfold stepElem at *
        cases fwd
        · by_cases h0 : cur = 0
          · simp [h0]
          · simp [h0] at e2
        · by_cases h0 : num ≤ cur + 1
          · simp [h0]
          · simp [h0] at e2
      rw [this]
      rfl
    · simp at e

/-- Visits of the columns behind a column, with the column staying the same; then on. -/
theorem visits_lift_step {fwd : Bool} {n c c' : Nat} {ns : List Nat} {s : List Nat}
    {L T : List (List Nat)} (hv : Visits fwd ns s L) (hs : s.length = ns.length)
    (hc : stepElem fwd n c = (c', true))
    (hT : Visits fwd (n :: ns) (c' :: start fwd ns) T) :
    Visits fwd (n :: ns) (c :: s) (L.map (c :: ·) ++ T) := by
  induction hv with
  | stop e =>
    refine Visits.step (s' := c' :: start fwd ns) ?_ hT
    have := advance_roll fwd ns _ _ hs e
    subst this
    rw [advance, e]
    simp [hc]
  | step e _ ih =>
    refine Visits.step ?_ (ih ?_)
    · rw [advance, e]
    · have := advance_length fwd ns _ hs
      rw [e] at this
      exact this

theorem visits_lift_stop {fwd : Bool} {n c c' : Nat} {ns : List Nat} {s : List Nat}
    {L : List (List Nat)} (hv : Visits fwd ns s L) (hs : s.length = ns.length)
    (hc : stepElem fwd n c = (c', false)) :
    Visits fwd (n :: ns) (c :: s) (L.map (c :: ·)) := by
  induction hv with
  | stop e =>
    refine Visits.stop (s' := c' :: start fwd ns) ?_
    have := advance_roll fwd ns _ _ hs e
    subst this
    rw [advance, e]
    simp [hc]
  | step e _ ih =>
    refine Visits.step ?_ (ih ?_)
    · rw [advance, e]
    · have := advance_length fwd ns _ hs
      rw [e] at this
      exact this

/-- The values of `cur_elem` of one array from the first on; only for the proofs, not from the
source. -/
def elemSeq (fwd : Bool) (n : Nat) : List Nat :=
  if fwd then List.range n else (List.range n).reverse

/-- All positions; only for the proofs, not from the source. -/
def allPos (fwd : Bool) : List Nat → List (List Nat)
  | [] => [[]]
  | n :: ns => (elemSeq fwd n).flatMap fun c => (allPos fwd ns).map (c :: ·)

theorem start_length (fwd : Bool) (ns : List Nat) : (start fwd ns).length = ns.length := by
  simp [start]

theorem visits_fwd {n : Nat} {ns : List Nat} {L : List (List Nat)}
    (hv : Visits true ns (start true ns) L) :
    ∀ k c, c + k + 1 = n → Visits true (n :: ns) (c :: start true ns)
      ((List.range' c (k + 1)).flatMap fun c => L.map (c :: ·))
  | 0, c, h => by
    simp only [List.range'_succ, List.range'_zero, List.flatMap_cons, List.flatMap_nil,
      List.append_nil]
    exact visits_lift_stop hv (start_length _ _) (c' := 0) (by simp [stepElem]; omega)
  | k + 1, c, h => by
    rw [List.range'_succ, List.flatMap_cons]
    refine visits_lift_step hv (start_length _ _) (c' := c + 1) ?_
      (visits_fwd hv k (c + 1) (by omega))
    have : ¬ n ≤ c + 1 := by omega
    simp [stepElem, this]

theorem visits_bwd {n : Nat} {ns : List Nat} {L : List (List Nat)}
    (hv : Visits false ns (start false ns) L) :
    ∀ c, Visits false (n :: ns) (c :: start false ns)
      ((List.range (c + 1)).reverse.flatMap fun c => L.map (c :: ·))
  | 0 => by
    have : (List.range (0 + 1)).reverse = [0] := rfl
    rw [this]
    simp only [List.flatMap_cons, List.flatMap_nil, List.append_nil]
    exact visits_lift_stop hv (start_length _ _) (c' := n - 1) (by simp [stepElem])
  | c + 1 => by
    rw [List.range_succ, List.reverse_append, List.reverse_singleton, List.singleton_append,
      List.flatMap_cons]
    exact visits_lift_step hv (start_length _ _) (c' := c) (by simp [stepElem])
      (visits_bwd hv c)

theorem visits_all (fwd : Bool) :
    ∀ nums : List Nat, (∀ n ∈ nums, n ≠ 0) → Visits fwd nums (start fwd nums) (allPos fwd nums)
  | [], _ => Visits.stop (s' := []) rfl
  | n :: ns, h => by
    have hv := visits_all fwd ns fun x hx => h x (List.mem_cons_of_mem _ hx)
    have hn := h n (by simp)
    cases fwd
    · have := visits_bwd (n := n) hv (n - 1)
      rw [show n - 1 + 1 = n by omega] at this
      exact this
    · have := visits_fwd (n := n) hv (n - 1) 0 (by omega)
      rw [show n - 1 + 1 = n by omega, ← List.range_eq_range'] at this
      exact this

/-! ## The order of rows -/

theorem colLt_asymm {f : Field} {x y : Option Int} (h : ColLt f x y) : ¬ ColLt f y x := by
  intro h'
  cases x <;> cases y <;> simp only [ColLt] at h h'
  · rw [h] at h'; cases h'
  · rw [h] at h'; cases h'
  · cases hf : f.asc <;> simp only [hf, if_true, if_false, Bool.false_eq_true] at h h' <;> omega

theorem colLt_irrefl {f : Field} {x : Option Int} : ¬ ColLt f x x := fun h => colLt_asymm h h

theorem rowLt_asymm : ∀ (fs : List Field) (r s : Row), RowLt fs r s → ¬ RowLt fs s r
  | [], _, _, h => by simp [RowLt] at h
  | _ :: _, [], _, h => by simp [RowLt] at h
  | _ :: _, _ :: _, [], h => by simp [RowLt] at h
  | f :: fs, x :: r, y :: s, h => by
    intro h'
    simp only [RowLt] at h h'
    rcases h with h | ⟨e, h⟩ <;> rcases h' with h' | ⟨e', h'⟩
    · exact colLt_asymm h h'
    · subst e'; exact colLt_irrefl h
    · subst e; exact colLt_irrefl h'
    · exact rowLt_asymm fs r s h h'

theorem rowLt_take : ∀ (fs : List Field) (k : Nat) (r s : Row),
    RowLt fs (r.take k) (s.take k) → RowLt fs r s
  | [], _, _, _, h => by simp [RowLt] at h
  | _ :: _, 0, _, _, h => by simp [RowLt] at h
  | _ :: _, _ + 1, [], _, h => by simp [RowLt] at h
  | _ :: _, _ + 1, _ :: _, [], h => by simp [RowLt] at h
  | f :: fs, k + 1, x :: r, y :: s, h => by
    simp only [List.take_succ_cons, RowLt] at h ⊢
    rcases h with h | ⟨e, h⟩
    · exact Or.inl h
    · exact Or.inr ⟨e, rowLt_take fs k r s h⟩

theorem sorted_same {R : Row → Row → Prop} (hR : ∀ a b, R a b → ¬ R b a) :
    ∀ l l' : List Row, l.Pairwise R → l'.Pairwise R → (∀ x, x ∈ l ↔ x ∈ l') → l = l'
  | [], [], _, _, _ => rfl
  | [], b :: _, _, _, h => by have := (h b).mpr (by simp); cases this
  | a :: _, [], _, _, h => by have := (h a).mp (by simp); cases this
  | a :: l, b :: l', hp, hp', h => by
    rw [List.pairwise_cons] at hp hp'
    have e : a = b := by
      by_cases e : a = b
      · exact e
      exfalso
      have ha : a ∈ l' := by
        rcases List.mem_cons.mp ((h a).mp (by simp)) with h1 | h1
        · exact absurd h1 e
        · exact h1
      have hb : b ∈ l := by
        rcases List.mem_cons.mp ((h b).mpr (by simp)) with h1 | h1
        · exact absurd h1.symm e
        · exact h1
      exact hR a b (hp.1 b hb) (hp'.1 a ha)
    subst e
    congr 1
    refine sorted_same hR l l' hp.2 hp'.2 fun x => ?_
    constructor
    · intro hx
      rcases List.mem_cons.mp ((h x).mp (List.mem_cons_of_mem _ hx)) with h1 | h1
      · subst h1
        exact absurd (hp.1 x hx) (hR _ _ (hp.1 x hx))
      · exact h1
    · intro hx
      rcases List.mem_cons.mp ((h x).mpr (List.mem_cons_of_mem _ hx)) with h1 | h1
      · subst h1
        exact absurd (hp'.1 x hx) (hR _ _ (hp'.1 x hx))
      · exact h1

/-- The order in which a scan returns rows; only for the proofs, not from the source. -/
def DirLt (fwd : Bool) (fs : List Field) (r s : Row) : Prop :=
  if fwd then RowLt fs r s else RowLt fs s r

theorem elemSeq_pairwise (fwd : Bool) (n : Nat) :
    (elemSeq fwd n).Pairwise fun a b => if fwd then a < b else b < a := by
  cases fwd
  · simp only [elemSeq, Bool.false_eq_true, if_false, List.pairwise_reverse]
    exact List.pairwise_lt_range
  · simp only [elemSeq, if_true]
    exact List.pairwise_lt_range

theorem mem_elemSeq (fwd : Bool) (n c : Nat) : c ∈ elemSeq fwd n ↔ c < n := by
  cases fwd <;> simp [elemSeq]

theorem allPos_pairwise (fwd : Bool) :
    ∀ (fs : List Field) (ess : List (List Int)), ArraysOk fs ess →
      (allPos fwd (ess.map (·.length))).Pairwise fun s s' =>
        DirLt fwd fs (valuesAt ess s) (valuesAt ess s')
  | _, [], _ => by simp [allPos]
  | [], _ :: _, h => by simp [ArraysOk] at h
  | f :: fs, es :: ess, h => by
    have ih := allPos_pairwise fwd fs ess h.2
    simp only [List.map_cons, allPos, List.pairwise_flatMap, List.pairwise_map]
    refine ⟨fun c _ => ih.imp ?_, ?_⟩
    · intro s s' hs
      cases fwd
      · exact Or.inr ⟨rfl, hs⟩
      · exact Or.inr ⟨rfl, hs⟩
    · refine (elemSeq_pairwise fwd es.length).imp_of_mem ?_
      intro c c' hc hc' hlt x hx y hy
      rw [mem_elemSeq] at hc hc'
      obtain ⟨s, _, rfl⟩ := List.mem_map.mp hx
      obtain ⟨s', _, rfl⟩ := List.mem_map.mp hy
      cases fwd
      · exact Or.inl (sorted_get h.1 hlt hc)
      · exact Or.inl (sorted_get h.1 hlt hc')

theorem mem_allPos (fwd : Bool) :
    ∀ (fs : List Field) (ess : List (List Int)) (r : Row), ArraysOk fs ess →
      ((∃ s ∈ allPos fwd (ess.map (·.length)), r.take ess.length = valuesAt ess s) ↔
        matchesAll ess r = true)
  | _, [], r, _ => by simp [allPos, valuesAt, matchesAll]
  | [], _ :: _, _, h => by simp [ArraysOk] at h
  | f :: fs, es :: ess, [], h => by
    simp only [List.map_cons, allPos, List.mem_flatMap, List.mem_map, matchesAll,
      Bool.false_eq_true, iff_false]
    rintro ⟨s, ⟨c, _, s', _, rfl⟩, e⟩
    simp [valuesAt] at e
  | f :: fs, es :: ess, none :: r, h => by
    simp only [List.map_cons, allPos, List.mem_flatMap, List.mem_map, matchesAll,
      Bool.false_eq_true, iff_false]
    rintro ⟨s, ⟨c, _, s', _, rfl⟩, e⟩
    simp [valuesAt] at e
  | f :: fs, es :: ess, some v :: r, h => by
    have ih := mem_allPos fwd fs ess r h.2
    simp only [List.map_cons, allPos, List.mem_flatMap, List.mem_map, matchesAll,
      Bool.and_eq_true, decide_eq_true_eq, ← ih]
    constructor
    · rintro ⟨s, ⟨c, hc, s', hs', rfl⟩, e⟩
      rw [mem_elemSeq] at hc
      simp only [List.length_cons, List.take_succ_cons, valuesAt, List.cons.injEq,
        Option.some.injEq] at e
      refine ⟨?_, s', hs', e.2⟩
      rw [e.1, getD_get _ _ hc]
      exact List.getElem_mem hc
    · rintro ⟨hv, s', hs', e⟩
      obtain ⟨c, hc, ec⟩ := List.mem_iff_getElem.mp hv
      refine ⟨c :: s', ⟨c, (mem_elemSeq _ _ _).mpr hc, s', hs', rfl⟩, ?_⟩
      simp only [List.length_cons, List.take_succ_cons, valuesAt, List.cons.injEq,
        Option.some.injEq]
      exact ⟨by rw [getD_get _ _ hc]; exact ec.symm, e⟩

theorem arraysOk_ne : ∀ (fs : List Field) (ess : List (List Int)), ArraysOk fs ess →
    ∀ n ∈ ess.map (·.length), n ≠ 0
  | _, [], _ => by simp
  | [], _ :: _, h => by simp [ArraysOk] at h
  | f :: fs, es :: ess, h => by
    intro n hn
    rcases List.mem_cons.mp hn with e | e
    · subst e
      have := h.1.1
      simpa using this
    · exact arraysOk_ne fs ess h.2 n e

theorem dir_pairwise (fwd : Bool) (fs : List Field) (rows : List Row)
    (h : rows.Pairwise (RowLt fs)) :
    (if fwd then rows else rows.reverse).Pairwise (DirLt fwd fs) := by
  cases fwd
  · simp only [Bool.false_eq_true, if_false, List.pairwise_reverse]
    exact h
  · exact h

theorem mem_dir (fwd : Bool) (rows : List Row) (r : Row) :
    r ∈ (if fwd then rows else rows.reverse) ↔ r ∈ rows := by
  cases fwd <;> simp

theorem collect_all (fwd : Bool) (fs : List Field) (ess : List (List Int)) (rows : List Row)
    (hok : ArraysOk fs ess) (hrows : rows.Pairwise (RowLt fs)) :
    collect fwd ess rows (allPos fwd (ess.map (·.length))) =
      (if fwd then rows else rows.reverse).filter (matchesAll ess) := by
  have hR : ∀ a b, DirLt fwd fs a b → ¬ DirLt fwd fs b a := by
    intro a b h h'
    cases fwd
    · exact rowLt_asymm fs _ _ h h'
    · exact rowLt_asymm fs _ _ h h'
  refine sorted_same hR _ _ ?_ ((dir_pairwise fwd fs rows hrows).filter _) ?_
  · simp only [collect, List.pairwise_flatMap]
    refine ⟨fun s _ => (dir_pairwise fwd fs rows hrows).filter _, ?_⟩
    refine (allPos_pairwise fwd fs ess hok).imp ?_
    intro s s' hlt x hx y hy
    simp only [List.mem_filter, decide_eq_true_eq] at hx hy
    rw [← hx.2, ← hy.2] at hlt
    cases fwd
    · exact rowLt_take fs _ _ _ hlt
    · exact rowLt_take fs _ _ _ hlt
  · intro r
    simp only [collect, List.mem_flatMap, List.mem_filter, decide_eq_true_eq, mem_dir,
      ← mem_allPos fwd fs ess r hok]
    constructor
    · rintro ⟨s, hs, hr, e⟩
      exact ⟨hr, s, hs, e⟩
    · rintro ⟨hr, s, hs, e⟩
      exact ⟨s, hs, hr, e⟩

theorem scanGives_iff (fwd : Bool) (fs : List Field) (ess : List (List Int)) (rows out : List Row)
    (hok : ArraysOk fs ess) (hrows : rows.Pairwise (RowLt fs)) :
    ScanGives fwd ess rows out ↔
      out = (if fwd then rows else rows.reverse).filter (matchesAll ess) := by
  have hv := visits_all fwd _ (arraysOk_ne fs ess hok)
  rw [← collect_all fwd fs ess rows hok hrows]
  constructor
  · rintro ⟨l, hl, e⟩
    rw [visits_unique hl hv] at e
    exact e
  · intro e
    exact ⟨_, hv, e⟩

end Verif.ArrayScan
