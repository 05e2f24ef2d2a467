import Verif.BridgeVacuum.Pages

/-! # VACUUM of bridged indexes: removal from the bridge index, properties -/

namespace Verif.BridgeVacuum

/-- Leaves in order: an item is below the high key of its leaf, and not below those of the leaves
before, which have one. -/
def InOrder (ps : List Page) : Prop :=
  (∀ p ∈ ps, ∀ t ∈ p.items, ∀ k, p.hikey = some k → t < k) ∧
  ps.Pairwise fun p q => ∃ k, p.hikey = some k ∧ ∀ t ∈ q.items, k ≤ t

/-- Each item is where the search looks for it. -/
def Located (ps : List Page) : Prop :=
  ∀ i p, ps[i]? = some p → ∀ t ∈ p.items, findPage ps t = i

theorem located_of_inOrder {ps : List Page} (h : InOrder ps) : Located ps := by
  intro i p hp t ht
  obtain ⟨hi, rfl⟩ := List.getElem?_eq_some_iff.mp hp
  unfold findPage
  rw [List.findIdx_eq hi]
  constructor
  · have := h.1 _ (List.getElem_mem hi) t ht
    unfold pageMatch
    cases hk : (ps[i]).hikey with
    | none => rfl
    | some k => exact decide_eq_true (this k hk)
  · intro j hj
    obtain ⟨k, hk, hle⟩ := List.pairwise_iff_getElem.mp h.2 j i (by omega) hi hj
    unfold pageMatch
    rw [hk]
    have := hle t ht
    simp only [decide_eq_false_iff_not]
    omega

/-- The items of a page that are not removed. -/
def keep (ts : List Nat) (p : Page) : Page :=
  { p with items := p.items.filter fun x => decide (x ∉ ts) }

theorem pageMatch_keep (ts : List Nat) (t : Nat) (p : Page) : pageMatch t (keep ts p) = pageMatch t p := rfl

theorem findPage_map (ts : List Nat) (ps : List Page) (t : Nat) :
    findPage (ps.map (keep ts)) t = findPage ps t := by
  unfold findPage
  induction ps with
  | nil => rfl
  | cons p ps ih =>
    rw [List.map_cons, List.findIdx_cons, List.findIdx_cons, pageMatch_keep, ih]

theorem located_map {ps : List Page} (ts : List Nat) (h : Located ps) : Located (ps.map (keep ts)) := by
  intro i p hp t ht
  rw [List.getElem?_map] at hp
  cases hq : ps[i]? with
  | none => rw [hq] at hp; exact absurd hp (by simp)
  | some q =>
    rw [hq] at hp
    simp only [Option.map_some, Option.some.injEq] at hp
    subst hp
    rw [findPage_map]
    exact h i q hq t (List.mem_filter.mp ht).1

/-- Removing an item where the search looks for it removes it everywhere. -/
theorem modify_located {ps : List Page} (h : Located ps) (t : Nat) :
    (ps.modify (findPage ps t) fun p => { p with items := p.items.filter fun x => decide (x ≠ t) }) =
      ps.map (keep [t]) := by
  apply List.ext_getElem?
  intro j
  rw [List.getElem?_modify, List.getElem?_map]
  cases hj : ps[j]? with
  | none => rfl
  | some p =>
    simp only [Option.map_eq_map, Option.map_some, Option.some.injEq]
    by_cases e : findPage ps t = j
    · rw [if_pos e]
      simp [keep]
    · rw [if_neg e]
      have : p.items.filter (fun x => decide (x ∉ [t])) = p.items := by
        rw [List.filter_eq_self]
        intro x hx
        rw [decide_eq_true_eq, List.mem_singleton]
        intro ex
        subst ex
        exact e (h j p hj x hx)
      simp only [keep, this]

theorem has_located {ps : List Page} (h : Located ps) (t : Nat) :
    hasItem ps (findPage ps t) t = ps.any fun p => decide (t ∈ p.items) := by
  unfold hasItem
  rw [Bool.eq_iff_iff, List.any_eq_true]
  constructor
  · intro hh
    cases hp : ps[findPage ps t]? with
    | none => rw [hp] at hh; exact absurd hh (by simp)
    | some p => rw [hp] at hh; exact ⟨p, List.mem_of_getElem? hp, hh⟩
  · rintro ⟨p, hp, hh⟩
    obtain ⟨i, hi⟩ := List.mem_iff_getElem?.mp hp
    rw [h i p hi t (of_decide_eq_true hh), hi]
    exact hh

/-- The page in use is that of a former, smaller TID. -/
def CurOk (w : W) (ts : List Nat) : Prop :=
  (w.cur = none → w.buf = []) ∧
    ∀ i, w.cur = some i → ∃ t', i = findPage w.pages t' ∧ ∀ t ∈ ts, t' < t

/-- The page used again is the one the search would find. -/
theorem pick_eq {w : W} {t : Nat} {ts : List Nat} (h : CurOk w (t :: ts)) :
    pick w t = findPage w.pages t := by
  unfold pick
  cases hc : w.cur with
  | none => rfl
  | some i =>
    simp only []
    by_cases hl : leaves w t = true
    · rw [if_pos hl]
    · rw [if_neg hl]
      obtain ⟨t', hi, hlt⟩ := h.2 i hc
      have hlt := hlt t (by simp)
      unfold leaves at hl
      rw [hc] at hl
      simp only [] at hl
      cases hp : w.pages[i]? with
      | none => rw [hp] at hl; exact absurd rfl hl
      | some p =>
        rw [hp] at hl
        simp only [Bool.not_eq_true', Bool.not_eq_false] at hl
        obtain ⟨hi', rfl⟩ := List.getElem?_eq_some_iff.mp hp
        have h1 : w.pages.findIdx (pageMatch t') = i := hi.symm
        symm
        unfold findPage
        rw [List.findIdx_eq hi'] at h1 ⊢
        refine ⟨hl, fun j hj => ?_⟩
        have := h1.2 j hj
        unfold pageMatch at this ⊢
        cases hk : (w.pages[j]).hikey with
        | none => rw [hk] at this; exact absurd this (by simp)
        | some k =>
          rw [hk] at this
          simp only [decide_eq_false_iff_not] at this ⊢
          omega

theorem fold_remove (ts : List Nat) : ∀ w : W, Located w.pages → ts.Pairwise (· < ·) → CurOk w ts →
    (ts.foldl removeOne w).pages = w.pages.map (keep ts) ∧
    (ts.foldl removeOne w).wal ++ (ts.foldl removeOne w).buf =
      w.wal ++ w.buf ++ ts.filter (fun t => w.pages.any fun p => decide (t ∈ p.items)) ∧
    ((ts.foldl removeOne w).cur = none → (ts.foldl removeOne w).buf = []) := by
  induction ts with
  | nil =>
    intro w _ _ hc
    refine ⟨?_, by simp, hc.1⟩
    have : keep [] = id := by
      funext p
      have : p.items.filter (fun x => decide (x ∉ [])) = p.items :=
        List.filter_eq_self.mpr (by simp)
      unfold keep
      rw [this]
      rfl
    rw [List.foldl_nil, this, List.map_id]
  | cons t ts ih =>
    intro w hl hp hc
    rw [List.pairwise_cons] at hp
    have hpk := pick_eq hc
    have hpages : (removeOne w t).pages = w.pages.map (keep [t]) := by
      unfold removeOne
      simp only [hpk]
      exact modify_located hl t
    have hwal : (removeOne w t).wal ++ (removeOne w t).buf = w.wal ++ w.buf ++
        if (w.pages.any fun p => decide (t ∈ p.items)) = true then [t] else [] := by
      unfold removeOne
      simp only [hpk, has_located hl t]
      by_cases h1 : leaves w t = true <;>
        by_cases h2 : (w.pages.any fun p => decide (t ∈ p.items)) = true <;>
        simp only [h1, h2, if_true, if_false, Bool.false_eq_true, List.append_nil, List.nil_append,
          List.append_assoc]
    have hcur : CurOk (removeOne w t) ts := by
      refine ⟨fun h => absurd h (by simp [removeOne]), fun i hi => ⟨t, ?_, hp.1⟩⟩
      have : (removeOne w t).cur = some (pick w t) := rfl
      rw [this, hpk] at hi
      rw [hpages, findPage_map]
      exact (Option.some.inj hi).symm
    obtain ⟨i1, i2, i3⟩ := ih (removeOne w t) (by rw [hpages]; exact located_map _ hl) hp.2 hcur
    rw [List.foldl_cons]
    refine ⟨?_, ?_, i3⟩
    · rw [i1, hpages, List.map_map]
      apply List.map_congr_left
      intro p _
      simp only [Function.comp, keep, List.filter_filter]
      congr 1
      apply List.filter_congr
      intro x _
      rw [Bool.eq_iff_iff]
      simp only [Bool.and_eq_true, decide_eq_true_eq, List.mem_cons, List.not_mem_nil, or_false, not_or]
      exact And.comm
    · rw [i2, hwal, hpages]
      have hany : ts.filter (fun u => (w.pages.map (keep [t])).any fun p => decide (u ∈ p.items)) =
          ts.filter (fun u => w.pages.any fun p => decide (u ∈ p.items)) := by
        apply List.filter_congr
        intro u hu
        have hne : u ≠ t := by have := hp.1 u hu; omega
        rw [List.any_map]
        congr 1
        funext p
        simp [keep, hne]
      rw [hany, List.filter_cons]
      split <;> simp

/-- **C149**: given TIDs in ascending order, VACUUM removes from the bridge index exactly the items with
these TIDs, though it looks for a page only when the last one does not match; and it writes a WAL record
for each item removed, in order, and for no other. -/
theorem C149 (ps : List Page) (ts : List Nat) (hps : InOrder ps) (hts : ts.Pairwise (· < ·)) :
    removeAll ps ts =
      (ps.map fun p => { p with items := p.items.filter fun x => decide (x ∉ ts) },
        ts.filter fun t => ps.any fun p => decide (t ∈ p.items)) := by
  obtain ⟨h1, h2, h3⟩ := fold_remove ts ⟨ps, none, [], []⟩ (located_of_inOrder hps) hts
    ⟨fun _ => rfl, fun i h => absurd h (by simp)⟩
  unfold removeAll
  simp only []
  rw [h1]
  simp only [List.nil_append] at h2
  refine Prod.ext rfl ?_
  simp only []
  rw [← h2]
  cases hc : (ts.foldl removeOne ⟨ps, none, [], []⟩).cur with
  | none => rw [h3 hc, List.append_nil]
  | some i => rfl

/-- Three leaves; two TIDs in the first, one that is not there, and one in the last. -/
theorem C149_case :
    let ps : List Page := [⟨some 10, [2, 4, 9]⟩, ⟨some 20, [11, 12]⟩, ⟨none, [20, 33]⟩]
    InOrder ps ∧ [2, 9, 15, 33].Pairwise (fun a b : Nat => a < b) ∧
      removeAll ps [2, 9, 15, 33] = ([⟨some 10, [4]⟩, ⟨some 20, [11, 12]⟩, ⟨none, [20]⟩], [2, 9, 33]) := by
  refine ⟨⟨?_, ?_⟩, by decide, by decide⟩
  · intro p hp t ht k hk
    simp only [List.mem_cons, List.not_mem_nil, or_false] at hp
    rcases hp with rfl | rfl | rfl
    · simp at ht hk; omega
    · simp at ht hk; omega
    · simp at hk
  · simp

end Verif.BridgeVacuum
