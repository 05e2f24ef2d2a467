/-
Pages: key ranges of leaf pages, and what each page operation does to one row.
-/
import Verif.Visible.Key

namespace Verif.Visible

/-- Rows in the order of keys. -/
def Srt (its : Items) : Prop := its.Pairwise (fun a b => a.1 < b.1)

/-- The leaf pages from left to right cover all keys from `lo` on, each row is on the
page of its key. -/
def Ok : Nat → List Leaf → Prop
  | _, [] => False
  | lo, p :: t => Srt p.items ∧ (∀ r ∈ p.items, lo ≤ r.1 ∧ p.covers r.1 = true) ∧
    match p.hikey with
    | none => t = []
    | some h => lo < h ∧ Ok h t

theorem get_none {k : Nat} : ∀ {its : Items}, (∀ r ∈ its, r.1 ≠ k) → get its k = []
  | [], _ => rfl
  | (j, c) :: t, h => by
    have : j ≠ k := h (j, c) (by simp)
    simp only [get, if_neg this]
    exact get_none (fun r hr => h r (by simp [hr]))

theorem get_put_same (k : Nat) (c : Chain) : ∀ (its : Items), get (put its k c) k = c
  | [] => by simp [put, get]
  | (j, d) :: t => by
    unfold put
    split
    · simp [get]
    · split
      · simp [get]
      · next h => simp only [get, if_neg h]; exact get_put_same k c t

theorem get_put_other {k j : Nat} (c : Chain) (h : j ≠ k) : ∀ (its : Items),
    get (put its k c) j = get its j
  | [] => by simp [put, get, Ne.symm h]
  | (i, d) :: t => by
    unfold put
    split
    · simp [get, Ne.symm h]
    · split
      · next e => subst e; simp [get, Ne.symm h]
      · simp only [get]; rw [get_put_other c h t]

theorem put_mem {k : Nat} {c : Chain} : ∀ {its : Items} {r : Nat × Chain}, r ∈ put its k c →
    r = (k, c) ∨ r ∈ its
  | [], r, h => by simpa [put] using h
  | (i, d) :: t, r, h => by
    unfold put at h
    split at h
    · simpa using h
    · split at h
      · rcases List.mem_cons.1 h with h | h
        · exact Or.inl h
        · exact Or.inr (by simp [h])
      · rcases List.mem_cons.1 h with h | h
        · exact Or.inr (by simp [h])
        · rcases put_mem h with h | h
          · exact Or.inl h
          · exact Or.inr (by simp [h])

theorem put_srt {k : Nat} {c : Chain} : ∀ {its : Items}, Srt its → Srt (put its k c)
  | [], _ => by simp [put, Srt]
  | (i, d) :: t, h => by
    obtain ⟨h1, h2⟩ := List.pairwise_cons.1 h
    unfold put
    split
    · next hk =>
      refine List.pairwise_cons.2 ⟨?_, h⟩
      intro r hr
      rcases List.mem_cons.1 hr with rfl | hr
      · exact hk
      · have := h1 r hr; simp only at this ⊢; omega
    · split
      · next hk e =>
        subst e
        exact List.pairwise_cons.2 ⟨fun r hr => h1 r hr, h2⟩
      · next hk e =>
        refine List.pairwise_cons.2 ⟨?_, put_srt h2⟩
        intro r hr
        rcases put_mem hr with rfl | hr
        · simp only; omega
        · exact h1 r hr

/-- Dropping rows by their chain. -/
theorem get_filter_chain {p : Chain → Bool} {k : Nat} : ∀ {its : Items}, Srt its →
    get (its.filter (fun r => p r.2)) k = if p (get its k) then get its k else []
  | [], _ => (ite_self (c := p [] = true) ([] : Chain)).symm
  | (j, c) :: t, h => by
    obtain ⟨h1, h2⟩ := List.pairwise_cons.1 h
    have ih := get_filter_chain (p := p) (k := k) h2
    by_cases e : j = k
    · subst e
      cases hp : p c with
      | true => simp [List.filter_cons, hp, get]
      | false =>
        simp only [List.filter_cons, hp, get, if_true, Bool.false_eq_true, if_false]
        apply get_none
        intro r hr
        have := h1 r (List.mem_filter.1 hr).1
        simp only at this; omega
    · cases hp : p c with
      | true => simp [List.filter_cons, hp, get, e, ih]
      | false => simp [List.filter_cons, hp, get, e, ih]

theorem get_kept {st : Nat → Status} {fin n k : Nat} {its : Items} (h : Srt its) :
    get (kept st fin n its) k = if drops st fin n (get its k) then [] else get its k := by
  unfold kept
  rw [get_filter_chain (p := fun c => !drops st fin n c) h]
  cases drops st fin n (get its k) <;> simp

theorem get_mem {k : Nat} : ∀ {its : Items}, get its k ≠ [] → (k, get its k) ∈ its
  | [], h => absurd rfl h
  | (j, c) :: t, h => by
    unfold get at h ⊢
    split
    · next e => subst e; simp
    · next e => rw [if_neg e] at h; exact List.mem_cons.2 (Or.inr (get_mem h))

theorem anyDrop_get {st : Nat → Status} {fin n k : Nat} {its : Items}
    (h : anyDrop st fin n its = false) : drops st fin n (get its k) = false := by
  cases hg : get its k with
  | nil => rfl
  | cons e c =>
    have hm := get_mem (its := its) (k := k) (by rw [hg]; simp)
    rw [hg] at hm
    unfold anyDrop at h
    have := List.any_eq_false.1 h _ hm
    simpa using this

theorem get_map_filter {q : Ver → Bool} {k : Nat} : ∀ (its : Items),
    get (its.map (fun r => (r.1, r.2.filter q))) k = (get its k).filter q
  | [] => rfl
  | (j, c) :: t => by
    simp only [List.map_cons, get]
    split
    · rfl
    · exact get_map_filter t

theorem get_rollback {x m k : Nat} {p : Leaf} (h : Srt p.items) :
    get (p.rollback x m).items k = (get p.items k).filter (fun e => !undone x m e) := by
  unfold Leaf.rollback
  simp only
  rw [get_filter_chain (p := fun c => !c.isEmpty)]
  · rw [get_map_filter]
    split
    · rfl
    · next hn =>
      simp only [Bool.not_eq_true', Bool.not_eq_false, List.isEmpty_iff] at hn
      exact hn.symm
  · unfold Srt
    rw [List.pairwise_map]
    exact h

theorem get_append_left {k : Nat} {b : Items} (h : ∀ r ∈ b, r.1 ≠ k) : ∀ (a : Items),
    get (a ++ b) k = get a k
  | [] => get_none h
  | (j, c) :: t => by
    simp only [List.cons_append, get]
    rw [get_append_left h t]

theorem get_append_right {k : Nat} {b : Items} : ∀ {a : Items}, (∀ r ∈ a, r.1 ≠ k) →
    get (a ++ b) k = get b k
  | [], _ => rfl
  | (j, c) :: t, h => by
    have : j ≠ k := h (j, c) (by simp)
    simp only [List.cons_append, get, if_neg this]
    exact get_append_right (fun r hr => h r (by simp [hr]))

/-- What a row looks like: the `csn` of its page, its chain there and on the images. -/
abbrev View := Nat × Chain × KH

/-- The view of a row on its page. -/
def Leaf.view (p : Leaf) (k : Nat) : View := (p.csn, get p.items k, kh p.hist k)

/-- The view of a row in the tree. -/
def view (l : List Leaf) (k : Nat) : Option View := (leafOf l k).map (fun p => p.view k)

theorem view_cons (p : Leaf) (t : List Leaf) (k : Nat) :
    view (p :: t) k = if p.covers k then some (p.view k) else view t k := by
  unfold view
  rw [leafOf]
  split <;> rfl

/-- What a page operation may do to a row. -/
inductive Turn (s : St) : View → View → Prop
  | same (v : View) : Turn s v v
  | diff (csn : Nat) (cur : Chain) (t : KH) : Turn s (csn, cur, t) (s.next, cur, (csn, none) :: t)
  | full (csn : Nat) (cur : Chain) (t : KH) (fin : Nat) :
    Turn s (csn, cur, t) (s.next, if drops s.st fin s.next cur then [] else cur, (csn, some cur) :: t)
  | freeze (csn : Nat) (cur : Chain) (t : KH) (h : t = [] ∨ csn < s.oldest) :
    Turn s (csn, cur, t) (0, cur, [])

theorem Ok.leaf {k : Nat} : ∀ {l : List Leaf} {lo : Nat}, Ok lo l → ∃ p, leafOf l k = some p
  | [], _, h => h.elim
  | p :: t, lo, h => by
    unfold leafOf
    split
    · exact ⟨p, rfl⟩
    · next hc =>
      have h3 := h.2.2
      unfold Leaf.covers at hc
      cases hp : p.hikey with
      | none => rw [hp] at hc; simp at hc
      | some b => rw [hp] at h3; exact Ok.leaf h3.2

/-- A row is replaced. -/
theorem view_set {k : Nat} {c : Chain} {j : Nat} : ∀ (l : List Leaf),
    view (onLeaf k (Leaf.setRow k c) l) j =
      (view l j).map (fun v => if j = k then (v.1, c, v.2.2) else v)
  | [] => rfl
  | p :: t => by
    have ih := view_set (k := k) (c := c) (j := j) t
    unfold onLeaf
    by_cases hk : p.covers k = true
    · rw [if_pos hk, view_cons, view_cons]
      have hc : (Leaf.setRow k c p).covers j = p.covers j := rfl
      rw [hc]
      by_cases hj : p.covers j = true
      · rw [if_pos hj, if_pos hj]
        by_cases e : j = k
        · subst e; simp [Leaf.view, Leaf.setRow, get_put_same]
        · simp [Leaf.view, Leaf.setRow, get_put_other c e, e]
      · rw [if_neg hj, if_neg hj]
        have e : j ≠ k := by intro e; subst e; exact hj hk
        cases view t j <;> simp [e]
    · rw [if_neg hk, view_cons, view_cons, ih]
      by_cases hj : p.covers j = true
      · rw [if_pos hj, if_pos hj]
        have e : j ≠ k := by intro e; subst e; exact hk hj
        simp [e]
      · rw [if_neg hj, if_neg hj]

theorem Ok.set {k : Nat} {c : Chain} : ∀ {l : List Leaf} {lo : Nat}, Ok lo l → lo ≤ k →
    Ok lo (onLeaf k (Leaf.setRow k c) l)
  | [], _, h, _ => h.elim
  | p :: t, lo, h, hk => by
    unfold onLeaf
    by_cases hc : p.covers k = true
    · rw [if_pos hc]
      refine ⟨put_srt h.1, ?_, h.2.2⟩
      intro r hr
      rcases put_mem hr with rfl | hr
      · exact ⟨hk, hc⟩
      · exact h.2.1 r hr
    · rw [if_neg hc]
      refine ⟨h.1, h.2.1, ?_⟩
      have h3 := h.2.2
      unfold Leaf.covers at hc
      cases hp : p.hikey with
      | none => rw [hp] at hc; simp at hc
      | some b =>
        rw [hp] at h3 hc
        simp at hc
        exact ⟨h3.1, Ok.set h3.2 hc⟩

/-- Changes of a transaction are taken off all pages. -/
theorem view_rollback {x m j : Nat} : ∀ {l : List Leaf} {lo : Nat}, Ok lo l →
    view (l.map (Leaf.rollback x m)) j =
      (view l j).map (fun v => (v.1, v.2.1.filter (fun e => !undone x m e), v.2.2))
  | [], _, h => h.elim
  | p :: t, lo, h => by
    rw [List.map_cons, view_cons, view_cons]
    have hc : (Leaf.rollback x m p).covers j = p.covers j := rfl
    rw [hc]
    by_cases hj : p.covers j = true
    · rw [if_pos hj, if_pos hj]
      have := get_rollback (x := x) (m := m) (k := j) h.1
      simp only [Leaf.view, this, Option.map_some]
      rfl
    · rw [if_neg hj, if_neg hj]
      have h3 := h.2.2
      unfold Leaf.covers at hj
      cases hp : p.hikey with
      | none => rw [hp] at hj; simp at hj
      | some b => rw [hp] at h3; exact view_rollback h3.2

theorem srt_rollback {x m : Nat} {p : Leaf} (h : Srt p.items) : Srt (p.rollback x m).items := by
  unfold Leaf.rollback
  simp only
  apply List.Pairwise.filter
  rw [List.pairwise_map]
  exact h

theorem mem_rollback {x m : Nat} {p : Leaf} {r : Nat × Chain} (h : r ∈ (p.rollback x m).items) :
    ∃ r' ∈ p.items, r'.1 = r.1 := by
  unfold Leaf.rollback at h
  simp only at h
  obtain ⟨r', h1, h2⟩ := List.mem_map.1 (List.mem_filter.1 h).1
  exact ⟨r', h1, by rw [← h2]⟩

theorem Ok.rollback {x m : Nat} : ∀ {l : List Leaf} {lo : Nat}, Ok lo l →
    Ok lo (l.map (Leaf.rollback x m))
  | [], _, h => h.elim
  | p :: t, lo, h => by
    refine ⟨srt_rollback h.1, ?_, ?_⟩
    · intro r hr
      obtain ⟨r', h1, h2⟩ := mem_rollback hr
      rw [← h2]; exact h.2.1 r' h1
    · have h3 := h.2.2
      have he : (Leaf.rollback x m p).hikey = p.hikey := rfl
      rw [he]
      cases hp : p.hikey with
      | none => rw [hp] at h3; simp only at h3 ⊢; rw [h3]; rfl
      | some b => rw [hp] at h3; exact ⟨h3.1, Ok.rollback h3.2⟩

/-- A compaction. -/
theorem view_compact {s : St} {k fin j : Nat} : ∀ {l : List Leaf} {lo : Nat}, Ok lo l →
    ∀ v', view (onLeaf k (compactLeaf s fin) l) j = some v' → ∃ v, view l j = some v ∧ Turn s v v'
  | [], _, h => h.elim
  | p :: t, lo, h => by
    intro v' hv
    unfold onLeaf at hv
    have ih : p.covers j = false → ∀ v', view (onLeaf k (compactLeaf s fin) t) j = some v' →
        ∃ v, view t j = some v ∧ Turn s v v' := by
      intro hj
      have h3 := h.2.2
      unfold Leaf.covers at hj
      cases hp : p.hikey with
      | none => rw [hp] at hj; simp at hj
      | some b => rw [hp] at h3; exact view_compact h3.2
    rw [view_cons]
    by_cases hj : p.covers j = true
    · rw [if_pos hj]
      refine ⟨_, rfl, ?_⟩
      split at hv
      · rw [view_cons, if_pos (show (compactLeaf s fin p).covers j = true from hj)] at hv
        simp only [Option.some.injEq] at hv
        subst hv
        simp only [Leaf.view, compactLeaf, kh, get_kept h.1]
        exact .full _ _ _ _
      · rw [view_cons, if_pos hj] at hv
        simp only [Option.some.injEq] at hv
        subst hv
        exact .same _
    · rw [if_neg hj]
      split at hv
      · rw [view_cons, if_neg (show ¬ (compactLeaf s fin p).covers j = true from hj)] at hv
        exact ⟨v', hv, .same _⟩
      · rw [view_cons, if_neg hj] at hv
        exact ih (by simpa using hj) v' hv

theorem Ok.compact {s : St} {k fin : Nat} : ∀ {l : List Leaf} {lo : Nat}, Ok lo l →
    Ok lo (onLeaf k (compactLeaf s fin) l)
  | [], _, h => h.elim
  | p :: t, lo, h => by
    unfold onLeaf
    split
    · exact ⟨List.Pairwise.filter _ h.1, fun r hr => h.2.1 r (List.mem_filter.1 hr).1, h.2.2⟩
    · refine ⟨h.1, h.2.1, ?_⟩
      have h3 := h.2.2
      cases hp : p.hikey with
      | none => rw [hp] at h3; simp only at h3 ⊢; rw [h3]; rfl
      | some b => rw [hp] at h3; exact ⟨h3.1, Ok.compact h3.2⟩

theorem noReader_kh {oldest k : Nat} {free : Bool} {p : Leaf} (h : noReader oldest free p = true) :
    kh p.hist k = [] ∨ p.csn < oldest := by
  unfold noReader at h
  cases hp : p.hist with
  | nil => exact Or.inl rfl
  | full _ _ _ _ => rw [hp] at h; simp at h; exact Or.inr h.2
  | splitDiff _ _ _ => rw [hp] at h; simp at h; exact Or.inr h.2
  | merge _ _ _ _ _ _ _ _ => rw [hp] at h; simp at h; exact Or.inr h.2
  | mergeDiff _ _ _ _ _ => rw [hp] at h; simp at h; exact Or.inr h.2

/-- The header fields after a split. -/
theorem Turn.split {s : St} {m fin : Nat} {seq free : Bool} {p : Leaf} (h : Srt p.items) (k : Nat) :
    Turn s (p.view k) ((splitHist s m fin seq free p).1, get (kept s.st fin s.next p.items) k,
      kh (splitHist s m fin seq free p).2 k) := by
  unfold splitHist Leaf.view
  rw [get_kept h]
  split
  · exact .full _ _ _ _
  · next hd =>
    simp only [Bool.or_eq_true, not_or, Bool.not_eq_true] at hd
    rw [anyDrop_get hd.1]
    split
    · next hn => exact .freeze _ _ _ (noReader_kh hn)
    · exact .diff _ _ _

theorem view_split {s : St} {m fin : Nat} {seq free : Bool} {j : Nat} : ∀ {l : List Leaf} {lo : Nat},
    Ok lo l → lo ≤ j →
    ∀ v', view (splitAt s m fin seq free lo l) j = some v' → ∃ v, view l j = some v ∧ Turn s v v'
  | [], _, h, _ => h.elim
  | p :: t, lo, h, hlo => by
    intro v' hv
    unfold splitAt at hv
    rw [view_cons]
    by_cases hm : p.covers m = true
    · rw [if_pos hm] at hv
      by_cases hl : lo < m
      · rw [if_pos hl] at hv
        unfold splitLeaf at hv
        simp only [List.cons_append, List.nil_append] at hv
        rw [view_cons] at hv
        by_cases hj : j < m
        · rw [if_pos (by simp [Leaf.covers, hj])] at hv
          simp only [Option.some.injEq] at hv
          subst hv
          have hp : p.covers j = true := by
            unfold Leaf.covers at hm ⊢
            cases hh : p.hikey with
            | none => rfl
            | some b => rw [hh] at hm; simp at hm ⊢; omega
          rw [if_pos hp]
          refine ⟨_, rfl, ?_⟩
          simp only [Leaf.view, get_below hj]
          exact Turn.split h.1 j
        · rw [if_neg (by simp [Leaf.covers, hj])] at hv
          have hcc : ∀ c i h, Leaf.covers { hikey := p.hikey, csn := c, items := i, hist := h } j =
              p.covers j := fun _ _ _ => rfl
          rw [view_cons, hcc] at hv
          by_cases hp : p.covers j = true
          · rw [if_pos hp] at hv
            simp only [Option.some.injEq] at hv
            subst hv
            rw [if_pos hp]
            refine ⟨_, rfl, ?_⟩
            simp only [Leaf.view, get_above (Nat.le_of_not_lt hj)]
            exact Turn.split h.1 j
          · rw [if_neg hp] at hv
            rw [if_neg hp]
            exact ⟨v', hv, .same _⟩
      · rw [if_neg hl, view_cons] at hv
        exact ⟨v', hv, .same _⟩
    · rw [if_neg hm, view_cons] at hv
      by_cases hp : p.covers j = true
      · rw [if_pos hp] at hv ⊢
        exact ⟨v', hv, .same _⟩
      · rw [if_neg hp] at hv ⊢
        have h3 := h.2.2
        unfold Leaf.covers at hp
        cases hh : p.hikey with
        | none => rw [hh] at hp; simp at hp
        | some b =>
          rw [hh] at h3 hv hp
          simp at hp
          exact view_split h3.2 hp v' hv

theorem Ok.split {s : St} {m fin : Nat} {seq free : Bool} : ∀ {l : List Leaf} {lo : Nat},
    Ok lo l → Ok lo (splitAt s m fin seq free lo l)
  | [], _, h => h.elim
  | p :: t, lo, h => by
    unfold splitAt
    by_cases hm : p.covers m = true
    · rw [if_pos hm]
      by_cases hl : lo < m
      · rw [if_pos hl]
        unfold splitLeaf
        simp only [List.cons_append, List.nil_append]
        refine ⟨List.Pairwise.filter _ (List.Pairwise.filter _ h.1), ?_, hl, ?_⟩
        · intro r hr
          obtain ⟨h1, h2⟩ := List.mem_filter.1 hr
          obtain ⟨h1, _⟩ := List.mem_filter.1 h1
          exact ⟨(h.2.1 r h1).1, by simpa [Leaf.covers] using h2⟩
        · refine ⟨List.Pairwise.filter _ (List.Pairwise.filter _ h.1), ?_, ?_⟩
          · intro r hr
            obtain ⟨h1, h2⟩ := List.mem_filter.1 hr
            obtain ⟨h1, _⟩ := List.mem_filter.1 h1
            exact ⟨by simpa using h2, (h.2.1 r h1).2⟩
          · have h3 := h.2.2
            unfold Leaf.covers at hm
            simp only
            cases hh : p.hikey with
            | none => rw [hh] at h3; exact h3
            | some b => rw [hh] at h3 hm; simp at hm; exact ⟨hm, h3.2⟩
      · rw [if_neg hl]; exact h
    · rw [if_neg hm]
      refine ⟨h.1, h.2.1, ?_⟩
      have h3 := h.2.2
      unfold Leaf.covers at hm
      cases hh : p.hikey with
      | none => rw [hh] at hm; simp at hm
      | some b => rw [hh] at h3; exact ⟨h3.1, Ok.split h3.2⟩

theorem srt_append {a b : Items} {m : Nat} (ha : Srt a) (hb : Srt b) (h1 : ∀ r ∈ a, r.1 < m)
    (h2 : ∀ r ∈ b, m ≤ r.1) : Srt (a ++ b) := by
  refine List.pairwise_append.2 ⟨ha, hb, ?_⟩
  intro x hx y hy
  have := h1 x hx
  have := h2 y hy
  omega

/-- The header fields after a merge. -/
theorem Turn.merge {s : St} {b fin : Nat} {seq free : Bool} {p q : Leaf} (hp : Srt p.items)
    (hq : Srt q.items) (h1 : ∀ r ∈ p.items, r.1 < b) (h2 : ∀ r ∈ q.items, b ≤ r.1) (k : Nat) :
    Turn s ((if k < b then p else q).view k)
      ((mergeHist s b fin seq free p q).1, get (kept s.st fin s.next (p.items ++ q.items)) k,
      kh (mergeHist s b fin seq free p q).2 k) := by
  rw [get_kept (srt_append hp hq h1 h2)]
  by_cases hk : k < b
  · rw [if_pos hk, get_append_left (fun r hr => by have := h2 r hr; omega)]
    unfold mergeHist Leaf.view
    split
    · simp only [kh, if_neg (show ¬ b ≤ k by omega)]
      exact .full _ _ _ _
    · next hd =>
      simp only [Bool.or_eq_true, not_or, Bool.not_eq_true] at hd
      rw [anyDrop_get hd.1]
      split
      · next hn =>
        simp only [Bool.and_eq_true] at hn
        exact .freeze _ _ _ (noReader_kh hn.1.1)
      · simp only [kh, if_neg (show ¬ b ≤ k by omega)]
        exact .diff _ _ _
  · rw [if_neg hk, get_append_right (fun r hr => by have := h1 r hr; omega)]
    unfold mergeHist Leaf.view
    split
    · simp only [kh, if_pos (show b ≤ k by omega)]
      exact .full _ _ _ _
    · next hd =>
      simp only [Bool.or_eq_true, not_or, Bool.not_eq_true] at hd
      rw [anyDrop_get hd.2]
      split
      · next hn =>
        simp only [Bool.and_eq_true] at hn
        exact .freeze _ _ _ (noReader_kh hn.1.2)
      · simp only [kh, if_pos (show b ≤ k by omega)]
        exact .diff _ _ _

theorem view_merge {s : St} {b fin : Nat} {seq free : Bool} {j : Nat} : ∀ {l : List Leaf} {lo : Nat},
    Ok lo l →
    ∀ v', view (mergeAt s b fin seq free l) j = some v' → ∃ v, view l j = some v ∧ Turn s v v'
  | [], _, h => h.elim
  | [p], lo, h => fun v' hv => ⟨v', hv, .same _⟩
  | p :: q :: t, lo, h => by
    intro v' hv
    unfold mergeAt at hv
    rw [view_cons]
    have h3 := h.2.2
    by_cases hb : p.hikey = some b
    · rw [if_pos hb, view_cons] at hv
      rw [hb] at h3
      obtain ⟨hlo, hq1, hq2, hq3⟩ := h3
      have hp2 : ∀ r ∈ p.items, r.1 < b := by
        intro r hr
        have := (h.2.1 r hr).2
        unfold Leaf.covers at this; rw [hb] at this; simpa using this
      have hT := Turn.merge (s := s) (fin := fin) (seq := seq) (free := free) h.1 hq1 hp2
        (fun r hr => (hq2 r hr).1) j
      have hcov : (mergeLeaf s b fin seq free p q).covers j = q.covers j := rfl
      rw [hcov] at hv
      by_cases hj : j < b
      · have hpc : p.covers j = true := by simp [Leaf.covers, hb, hj]
        have hqc : q.covers j = true := by
          unfold Leaf.covers
          cases hh : q.hikey with
          | none => rfl
          | some c => rw [hh] at hq3; simp; omega
        rw [if_pos hqc] at hv
        simp only [Option.some.injEq] at hv
        subst hv
        rw [if_pos hpc]
        refine ⟨_, rfl, ?_⟩
        rw [if_pos hj] at hT
        exact hT
      · have hpc : ¬ p.covers j = true := by simp [Leaf.covers, hb, hj]
        rw [if_neg hpc, view_cons]
        by_cases hqc : q.covers j = true
        · rw [if_pos hqc] at hv ⊢
          simp only [Option.some.injEq] at hv
          subst hv
          refine ⟨_, rfl, ?_⟩
          rw [if_neg hj] at hT
          exact hT
        · rw [if_neg hqc] at hv ⊢
          exact ⟨v', hv, .same _⟩
    · rw [if_neg hb, view_cons] at hv
      by_cases hp : p.covers j = true
      · rw [if_pos hp] at hv ⊢
        exact ⟨v', hv, .same _⟩
      · rw [if_neg hp] at hv ⊢
        unfold Leaf.covers at hp
        cases hh : p.hikey with
        | none => rw [hh] at hp; simp at hp
        | some c => rw [hh] at h3; exact view_merge h3.2 v' hv

theorem Ok.merge {s : St} {b fin : Nat} {seq free : Bool} : ∀ {l : List Leaf} {lo : Nat},
    Ok lo l → Ok lo (mergeAt s b fin seq free l)
  | [], _, h => h.elim
  | [p], lo, h => h
  | p :: q :: t, lo, h => by
    unfold mergeAt
    have h3 := h.2.2
    by_cases hb : p.hikey = some b
    · rw [if_pos hb]
      rw [hb] at h3
      obtain ⟨hlo, hq1, hq2, hq3⟩ := h3
      have hp2 : ∀ r ∈ p.items, r.1 < b := by
        intro r hr
        have := (h.2.1 r hr).2
        unfold Leaf.covers at this; rw [hb] at this; simpa using this
      refine ⟨List.Pairwise.filter _ (srt_append h.1 hq1 hp2 (fun r hr => (hq2 r hr).1)), ?_, ?_⟩
      · intro r hr
        rcases List.mem_append.1 (List.mem_filter.1 hr).1 with hr | hr
        · refine ⟨(h.2.1 r hr).1, ?_⟩
          have := hp2 r hr
          show q.covers r.1 = true
          unfold Leaf.covers
          cases hh : q.hikey with
          | none => rfl
          | some c => rw [hh] at hq3; simp; omega
        · exact ⟨by have := (hq2 r hr).1; omega, (hq2 r hr).2⟩
      · show match q.hikey with | none => t = [] | some h => lo < h ∧ Ok h t
        cases hh : q.hikey with
        | none => rw [hh] at hq3; exact hq3
        | some c => rw [hh] at hq3; exact ⟨by omega, hq3.2⟩
    · rw [if_neg hb]
      refine ⟨h.1, h.2.1, ?_⟩
      cases hh : p.hikey with
      | none => rw [hh] at h3; simp at h3
      | some c => rw [hh] at h3; exact ⟨h3.1, Ok.merge h3.2⟩

end Verif.Visible
