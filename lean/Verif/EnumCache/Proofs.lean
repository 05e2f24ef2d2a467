import Verif.EnumCache.Model

/-! # The order of enum values in recovery: proofs -/

namespace Verif.EnumCache

theorem mem_insertItem {i x : Item} : ∀ {l : List Item}, x ∈ insertItem i l ↔ x = i ∨ x ∈ l
  | [] => by simp [insertItem]
  | y :: t => by
    have ih := mem_insertItem (i := i) (x := x) (l := t)
    unfold insertItem
    split
    · simp only [List.mem_cons, ih]; grind
    · simp only [List.mem_cons]

theorem mem_sortItems {x : Item} : ∀ {l : List Item}, x ∈ sortItems l ↔ x ∈ l
  | [] => by simp [sortItems]
  | y :: t => by
    have ih := mem_sortItems (x := x) (l := t)
    unfold sortItems at ih ⊢
    rw [List.foldr_cons, mem_insertItem, ih, List.mem_cons]

theorem insertItem_sorted {i : Item} : ∀ {l : List Item},
    l.Pairwise (fun x y => x.oid ≤ y.oid) → (insertItem i l).Pairwise (fun x y => x.oid ≤ y.oid)
  | [], _ => by simp [insertItem]
  | y :: t, h => by
    rw [List.pairwise_cons] at h
    have ih := insertItem_sorted (i := i) h.2
    unfold insertItem
    split
    · rename_i hlt
      rw [List.pairwise_cons]
      refine ⟨fun x hx => ?_, ih⟩
      rcases mem_insertItem.mp hx with e | e
      · rw [e]; omega
      · exact h.1 x e
    · rename_i hge
      rw [List.pairwise_cons]
      refine ⟨fun x hx => ?_, List.pairwise_cons.mpr h⟩
      rcases List.mem_cons.mp hx with e | e
      · rw [e]; omega
      · have := h.1 x e
        omega

theorem sortItems_sorted : ∀ l : List Item, (sortItems l).Pairwise (fun x y => x.oid ≤ y.oid)
  | [] => by simp [sortItems]
  | y :: t => by
    have ih := sortItems_sorted t
    unfold sortItems at ih ⊢
    exact insertItem_sorted ih

/-- A set of OIDs is right for items: each of its OIDs is the OID of an item, and greater OIDs have
greater orders; only for the proofs. -/
def Good (items : List Item) (s : Sorted) : Prop :=
  (∀ o ∈ s.bits, ∃ i ∈ items, i.oid = s.base + o) ∧
  ∀ o ∈ s.bits, ∀ p ∈ s.bits, o < p → ∀ i ∈ items, ∀ j ∈ items, i.oid = s.base + o →
    j.oid = s.base + p → i.order < j.order

theorem scan_prop (start : Nat) : ∀ (l : List Item) (prev : Int),
    l.Pairwise (fun x y => x.oid ≤ y.oid) → (∀ i ∈ l, start ≤ i.oid) →
    (∀ o ∈ scan start prev l, ∃ i ∈ l, i.oid = start + o ∧ prev < i.order) ∧
    (scan start prev l).Pairwise (fun o p => ∃ i ∈ l, ∃ j ∈ l, i.oid = start + o ∧
      j.oid = start + p ∧ i.order < j.order ∧ o ≤ p)
  | [], _, _, _ => by simp [scan]
  | i :: t, prev, hs, hge => by
    rw [List.pairwise_cons] at hs
    have hge' : ∀ x ∈ t, start ≤ x.oid := fun x hx => hge x (List.mem_cons_of_mem _ hx)
    have hi := hge i (by simp)
    unfold scan
    split
    · simp
    · split
      · rename_i hlt
        obtain ⟨h1, h2⟩ := scan_prop start t i.order hs.2 hge'
        refine ⟨fun o ho => ?_, ?_⟩
        · rcases List.mem_cons.mp ho with e | e
          · exact ⟨i, by simp, by omega, hlt⟩
          · obtain ⟨x, hx, e1, e2⟩ := h1 o e
            exact ⟨x, List.mem_cons_of_mem _ hx, e1, by omega⟩
        · rw [List.pairwise_cons]
          refine ⟨fun p hp => ?_, h2.imp ?_⟩
          · obtain ⟨x, hx, e1, e2⟩ := h1 p hp
            have := hs.1 x hx
            exact ⟨i, by simp, x, List.mem_cons_of_mem _ hx, by omega, e1, e2, by omega⟩
          · rintro o p ⟨x, hx, y, hy, h⟩
            exact ⟨x, List.mem_cons_of_mem _ hx, y, List.mem_cons_of_mem _ hy, h⟩
      · obtain ⟨h1, h2⟩ := scan_prop start t prev hs.2 hge'
        refine ⟨fun o ho => ?_, h2.imp ?_⟩
        · obtain ⟨x, hx, e⟩ := h1 o ho
          exact ⟨x, List.mem_cons_of_mem _ hx, e⟩
        · rintro o p ⟨x, hx, y, hy, h⟩
          exact ⟨x, List.mem_cons_of_mem _ hx, y, List.mem_cons_of_mem _ hy, h⟩

theorem pairwise_lt {l : List Nat} {R : Nat → Nat → Prop} (h : l.Pairwise fun o p => R o p ∧ o ≤ p) :
    ∀ o ∈ l, ∀ p ∈ l, o < p → R o p := by
  induction l with
  | nil => simp
  | cons a l ih =>
    rw [List.pairwise_cons] at h
    intro o ho p hp hlt
    rcases List.mem_cons.mp ho with e | e <;> rcases List.mem_cons.mp hp with e' | e'
    · omega
    · rw [e]; exact (h.1 p e').1
    · have := (h.1 o e).2
      omega
    · exact ih h.2 o e p e' hlt

theorem good_scan (items : List Item) (hf : ∀ i ∈ items, ∀ j ∈ items, i.oid = j.oid →
    i.order = j.order) (a : Item) (t : List Item) (hsub : ∀ x ∈ a :: t, x ∈ items)
    (hs : (a :: t).Pairwise (fun x y => x.oid ≤ y.oid)) (n : Nat) :
    Good items ⟨a.oid, 0 :: scan a.oid a.order t, n⟩ := by
  rw [List.pairwise_cons] at hs
  obtain ⟨h1, h2⟩ := scan_prop a.oid t a.order hs.2 hs.1
  have ha := hsub a (by simp)
  constructor
  · intro o ho
    rcases List.mem_cons.mp ho with e | e
    · exact ⟨a, ha, by simp only [e]; rfl⟩
    · obtain ⟨x, hx, e, _⟩ := h1 o e
      exact ⟨x, hsub x (List.mem_cons_of_mem _ hx), e⟩
  · refine pairwise_lt ?_
    rw [List.pairwise_cons]
    refine ⟨fun p hp => ⟨?_, by omega⟩, h2.imp ?_⟩
    · intro i hi j hj ei ej
      obtain ⟨x, hx, e, hlt⟩ := h1 p hp
      have e1 := hf i hi a ha (by simpa using ei)
      have e2 := hf j hj x (hsub x (List.mem_cons_of_mem _ hx)) (by rw [ej, e])
      omega
    · rintro o p ⟨x, hx, y, hy, ex, ey, hlt, hle⟩
      refine ⟨?_, hle⟩
      intro i hi j hj ei ej
      have e1 := hf i hi x (hsub x (List.mem_cons_of_mem _ hx)) (by rw [ei, ex])
      have e2 := hf j hj y (hsub y (List.mem_cons_of_mem _ hy)) (by rw [ej, ey])
      omega

theorem good_pick (items : List Item) (hf : ∀ i ∈ items, ∀ j ∈ items, i.oid = j.oid →
    i.order = j.order) : ∀ (l : List Item) (best : Sorted), (∀ x ∈ l, x ∈ items) →
    l.Pairwise (fun x y => x.oid ≤ y.oid) → Good items best → Good items (pick l best)
  | [], best, _, _, h => by simpa [pick] using h
  | [_], best, _, _, h => by simpa [pick] using h
  | a :: b :: t, best, hsub, hs, h => by
    unfold pick
    have hb : Good items (if best.size < (0 :: scan a.oid a.order (b :: t)).length then
        ⟨a.oid, 0 :: scan a.oid a.order (b :: t), (0 :: scan a.oid a.order (b :: t)).length⟩
        else best) := by
      split
      · exact good_scan items hf a (b :: t) hsub hs _
      · exact h
    simp only []
    generalize (if best.size < (0 :: scan a.oid a.order (b :: t)).length then
        (⟨a.oid, 0 :: scan a.oid a.order (b :: t),
          (0 :: scan a.oid a.order (b :: t)).length⟩ : Sorted)
        else best) = q at hb ⊢
    by_cases hc : (b :: t).length ≤ q.size
    · rw [if_pos hc]
      exact hb
    · rw [if_neg hc]
      exact good_pick items hf (b :: t) _ (fun x hx => hsub x (List.mem_cons_of_mem _ hx))
        (List.pairwise_cons.mp hs).2 hb

theorem collect_all {lsn : Nat} : ∀ {tree : List Ent}, (∀ e ∈ tree, e.lsn ≤ lsn) →
    collect lsn tree = tree.map fun e => ⟨e.oid, e.order⟩
  | [], _ => rfl
  | e :: t, h => by
    have := h e (by simp)
    unfold collect
    rw [if_neg (by omega), collect_all fun x hx => h x (List.mem_cons_of_mem _ hx)]
    rfl

theorem find_some {d : Data} {i : Item} (hi : i ∈ d.items)
    (hf : ∀ i ∈ d.items, ∀ j ∈ d.items, i.oid = j.oid → i.order = j.order) :
    ∃ x, find d i.oid = some x ∧ x.order = i.order := by
  unfold find
  cases h : d.items.find? fun x => decide (x.oid = i.oid) with
  | none =>
    have := List.find?_eq_none.mp h i hi
    simp at this
  | some x =>
    have h1 := List.find?_some h
    have h2 := List.mem_of_find?_eq_some h
    simp only [decide_eq_true_eq] at h1
    exact ⟨x, rfl, hf x h2 i hi h1⟩

/-- The comparison gives the order of the entries, if all are read. -/
theorem compare_load {lsn : Nat} {tree : List Ent} (hl : ∀ e ∈ tree, e.lsn ≤ lsn)
    (hf : ∀ e ∈ tree, ∀ e' ∈ tree, e.oid = e'.oid → e.order = e'.order)
    (ho : ∀ e ∈ tree, ∀ e' ∈ tree, e.order = e'.order → e.oid = e'.oid) {a b : Ent}
    (ha : a ∈ tree) (hb : b ∈ tree) :
    compare (load lsn tree) a.oid b.oid =
      some (if a.order < b.order then .lt else if b.order < a.order then .gt else .eq) := by
  have hmem : ∀ i, i ∈ (load lsn tree).items ↔ ∃ e ∈ tree, i = ⟨e.oid, e.order⟩ := by
    intro i
    unfold load
    rw [mem_sortItems, collect_all hl, List.mem_map]
    constructor
    · rintro ⟨e, he, h⟩; exact ⟨e, he, h.symm⟩
    · rintro ⟨e, he, h⟩; exact ⟨e, he, h.symm⟩
  have hfi : ∀ i ∈ (load lsn tree).items, ∀ j ∈ (load lsn tree).items, i.oid = j.oid →
      i.order = j.order := by
    intro i hi j hj h
    obtain ⟨e, he, rfl⟩ := (hmem i).mp hi
    obtain ⟨e', he', rfl⟩ := (hmem j).mp hj
    exact hf e he e' he' h
  have hgood : Good (load lsn tree).items (load lsn tree).sorted := by
    refine good_pick _ hfi _ _ (fun x hx => hx) (sortItems_sorted _) ?_
    exact ⟨by simp, by simp⟩
  have hia := (hmem ⟨a.oid, a.order⟩).mpr ⟨a, ha, rfl⟩
  have hib := (hmem ⟨b.oid, b.order⟩).mpr ⟨b, hb, rfl⟩
  generalize load lsn tree = d at hgood hia hib hfi
  unfold compare
  by_cases e : a.oid = b.oid
  · have := hf a ha b hb e
    rw [if_pos e, if_neg (by omega), if_neg (by omega)]
  · rw [if_neg e]
    have hne : a.order ≠ b.order := fun h => e (ho a ha b hb h)
    by_cases hk : (known d a.oid && known d b.oid) = true
    · rw [if_pos hk]
      simp only [known, Bool.and_eq_true, decide_eq_true_eq] at hk
      obtain ⟨⟨k1, k2⟩, k3, k4⟩ := hk
      by_cases hlt : a.oid < b.oid
      · have := hgood.2 _ k2 _ k4 (by omega) _ hia _ hib (by simp only; omega)
          (by simp only; omega)
        simp only at this
        rw [if_pos hlt, if_pos this]
      · have := hgood.2 _ k4 _ k2 (by omega) _ hib _ hia (by simp only; omega)
          (by simp only; omega)
        simp only at this
        rw [if_neg hlt, if_neg (by omega), if_pos this]
    · rw [if_neg hk]
      obtain ⟨x, h1, h2⟩ := find_some hia hfi
      obtain ⟨y, h3, h4⟩ := find_some hib hfi
      simp only at h1 h2 h3 h4
      rw [h1, h3]
      simp only [h2, h4]

/-! ### The entries -/

theorem mem_insertEnt {e x : Ent} : ∀ {l : List Ent}, x ∈ insertEnt e l ↔ x = e ∨ x ∈ l
  | [] => by simp [insertEnt]
  | y :: t => by
    have ih := mem_insertEnt (e := e) (x := x) (l := t)
    unfold insertEnt
    split
    · simp only [List.mem_cons, ih]; grind
    · simp only [List.mem_cons]

/-- The entries hold rows of a catalog; only for the proofs. -/
def Of (cat : List Val) (lsn : Nat) (tree : List Ent) : Prop :=
  ∀ e ∈ tree, e.lsn ≤ lsn ∧ ⟨e.label, e.oid, e.order⟩ ∈ cat

theorem of_addOne {cat : List Val} {lsn : Nat} {tree : List Ent} (h : Of cat lsn tree) {r : Val}
    (hr : r ∈ cat) (hu : ∀ x ∈ cat, ∀ y ∈ cat, x.label = y.label → x = y) :
    Of cat lsn (addOne lsn tree r) ∧ (∀ e ∈ tree, e ∈ addOne lsn tree r) ∧
      ∃ e ∈ addOne lsn tree r, r = ⟨e.label, e.oid, e.order⟩ := by
  unfold addOne
  split
  · rename_i ha
    refine ⟨h, fun _ h => h, ?_⟩
    rw [List.any_eq_true] at ha
    obtain ⟨e, he, h'⟩ := ha
    simp only [Bool.and_eq_true, decide_eq_true_eq] at h'
    exact ⟨e, he, hu r hr _ (h e he).2 h'.1.symm⟩
  · refine ⟨?_, fun e he => mem_insertEnt.mpr (Or.inr he), ⟨_, mem_insertEnt.mpr (Or.inl rfl), rfl⟩⟩
    intro e he
    rcases mem_insertEnt.mp he with e' | e'
    · subst e'; exact ⟨Nat.le_refl _, hr⟩
    · exact h e e'

theorem of_addAll {cat : List Val} {lsn : Nat}
    (hu : ∀ x ∈ cat, ∀ y ∈ cat, x.label = y.label → x = y) : ∀ (rs : List Val) (tree : List Ent),
    (∀ r ∈ rs, r ∈ cat) → Of cat lsn tree →
    Of cat lsn (addAll lsn tree rs) ∧ (∀ e ∈ tree, e ∈ addAll lsn tree rs) ∧
      ∀ r ∈ rs, ∃ e ∈ addAll lsn tree rs, r = ⟨e.label, e.oid, e.order⟩
  | [], tree, _, h => ⟨h, fun _ h => h, by simp⟩
  | r :: rs, tree, hsub, h => by
    obtain ⟨h1, h2, e, he, hre⟩ := of_addOne h (hsub r (by simp)) hu
    obtain ⟨h3, h4, h5⟩ := of_addAll hu rs (addOne lsn tree r)
      (fun x hx => hsub x (List.mem_cons_of_mem _ hx)) h1
    refine ⟨h3, fun x hx => h4 x (h2 x hx), fun x hx => ?_⟩
    rcases List.mem_cons.mp hx with e' | e'
    · exact ⟨e, h4 e he, by rw [e']; exact hre⟩
    · exact h5 x e'

theorem of_runs {cat : List Val} (hu : ∀ x ∈ cat, ∀ y ∈ cat, x.label = y.label → x = y) :
    ∀ (hist : List (Nat × List Val)) (lsn : Nat) (tree : List Ent), Of cat lsn tree →
      (∀ h ∈ hist, lsn ≤ h.1 ∧ ∀ r ∈ h.2, r ∈ cat) →
      hist.Pairwise (fun h h' => h.1 ≤ h'.1) → ∀ l, lsn ≤ l → (∀ h ∈ hist, h.1 ≤ l) →
      Of cat l (hist.foldl (fun tree h => addAll h.1 tree h.2) tree)
  | [], lsn, tree, h, _, _, l, hl, _ => fun e he => ⟨by have := (h e he).1; omega, (h e he).2⟩
  | x :: hist, lsn, tree, h, hh, hp, l, hl, hle => by
    rw [List.pairwise_cons] at hp
    have hx := hh x (by simp)
    rw [List.foldl_cons]
    refine of_runs hu hist x.1 _ (of_addAll hu x.2 tree hx.2 ?_).1 (fun y hy => ?_) hp.2 l
      (hle x (by simp)) fun y hy => hle y (List.mem_cons_of_mem _ hy)
    · exact fun e he => ⟨by have := (h e he).1; omega, (h e he).2⟩
    · exact ⟨hp.1 y hy, (hh y (List.mem_cons_of_mem _ hy)).2⟩

end Verif.EnumCache
