import Verif.PageSplit.LevelModel
import Verif.PageSplit.PutWaiters
import Verif.PageSplit.Merge

/-! # The pages of a level and the ranges of their keys -/

namespace Verif.PageSplit

/-- The items of pages, from left to right. -/
abbrev itemsOf (ps : List Page) : List Item := (ps.map Page.items).flatten

/-- Pages from `lo` to the end of the key space. -/
def Ranged : Nat → List Page → Prop
  | _, [] => False
  | lo, p :: ps => (∀ x ∈ p.items, lo ≤ x.row.tup.key) ∧ Sorted p.items ∧
    match p.hi with
    | none => ps = []
    | some t => lo ≤ t.key ∧ (∀ x ∈ p.items, x.row.tup.key < t.key) ∧ Ranged t.key ps

/-- Pages from `lo` to `up`. -/
def Upto : Nat → List Page → Nat → Prop
  | lo, [], up => lo = up
  | lo, p :: ps, up => (∀ x ∈ p.items, lo ≤ x.row.tup.key) ∧ Sorted p.items ∧
    ∃ t, p.hi = some t ∧ lo ≤ t.key ∧ (∀ x ∈ p.items, x.row.tup.key < t.key) ∧ Upto t.key ps up

theorem Ranged.append {lo up : Nat} {A B : List Page} (h : Upto lo A up) (hb : Ranged up B) :
    Ranged lo (A ++ B) := by
  induction A generalizing lo with
  | nil => cases h; exact hb
  | cons p A ih =>
    obtain ⟨h1, h2, t, h3, h4, h5, h6⟩ := h
    refine ⟨h1, h2, ?_⟩
    rw [h3]
    exact ⟨h4, h5, ih h6⟩

theorem Upto.le {lo up : Nat} {A : List Page} (h : Upto lo A up) : lo ≤ up := by
  induction A generalizing lo with
  | nil => cases h; exact Nat.le_refl _
  | cons p A ih =>
    obtain ⟨_, _, t, _, h4, _, h6⟩ := h
    exact Nat.le_trans h4 (ih h6)

theorem Upto.lt {lo up : Nat} {A : List Page} (h : Upto lo A up) :
    ∀ x ∈ itemsOf A, x.row.tup.key < up := by
  induction A generalizing lo with
  | nil => intro x hx; simp [itemsOf] at hx
  | cons p A ih =>
    obtain ⟨_, _, t, _, h4, h5, h6⟩ := h
    intro x hx
    rw [itemsOf, List.map_cons, List.flatten_cons, List.mem_append] at hx
    rcases hx with hx | hx
    · exact Nat.lt_of_lt_of_le (h5 x hx) h6.le
    · exact ih h6 x hx

theorem Upto.sorted {lo up : Nat} {A : List Page} (h : Upto lo A up) : Sorted (itemsOf A) ∧
    ∀ x ∈ itemsOf A, lo ≤ x.row.tup.key := by
  induction A generalizing lo with
  | nil => exact ⟨List.Pairwise.nil, fun x hx => (by simp [itemsOf] at hx)⟩
  | cons p A ih =>
    obtain ⟨h1, h2, t, _, h4, h5, h6⟩ := h
    obtain ⟨i1, i2⟩ := ih h6
    rw [itemsOf, List.map_cons, List.flatten_cons]
    refine ⟨sorted_append.2 ⟨h2, i1, fun x hx y hy => Nat.lt_of_lt_of_le (h5 x hx) (i2 y hy)⟩, ?_⟩
    intro x hx
    rcases List.mem_append.1 hx with hx | hx
    · exact h1 x hx
    · exact Nat.le_trans h4 (i2 x hx)

theorem Ranged.sorted {lo : Nat} {A : List Page} (h : Ranged lo A) : Sorted (itemsOf A) ∧
    ∀ x ∈ itemsOf A, lo ≤ x.row.tup.key := by
  induction A generalizing lo with
  | nil => exact h.elim
  | cons p A ih =>
    obtain ⟨h1, h2, h3⟩ := h
    rw [itemsOf, List.map_cons, List.flatten_cons]
    cases hh : p.hi with
    | none =>
      rw [hh] at h3
      dsimp only at h3
      subst h3
      simp only [List.map_nil, List.flatten_nil, List.append_nil]
      exact ⟨h2, h1⟩
    | some t =>
      rw [hh] at h3
      dsimp only at h3
      obtain ⟨h4, h5, h6⟩ := h3
      obtain ⟨i1, i2⟩ := ih h6
      refine ⟨sorted_append.2 ⟨h2, i1, fun x hx y hy => Nat.lt_of_lt_of_le (h5 x hx) (i2 y hy)⟩, ?_⟩
      intro x hx
      rcases List.mem_append.1 hx with hx | hx
      · exact h1 x hx
      · exact Nat.le_trans h4 (i2 x hx)

/-- The page with a key. -/
theorem pageFor_spec {lo k : Nat} {ps : List Page} (h : Ranged lo ps) (hk : lo ≤ k) :
    ∃ A p B lo', ps = A ++ p :: B ∧ pageFor k ps = A.length ∧ Upto lo A lo' ∧ Ranged lo' (p :: B) ∧
      lo' ≤ k ∧ ∀ t, p.hi = some t → k < t.key := by
  induction ps generalizing lo with
  | nil => exact h.elim
  | cons p ps ih =>
    obtain ⟨h1, h2, h3⟩ := h
    by_cases hp : p.hi.all (fun t => decide (k < t.key)) = true
    · refine ⟨[], p, ps, lo, rfl, ?_, rfl, ⟨h1, h2, h3⟩, hk, ?_⟩
      · unfold pageFor
        rw [List.findIdx_cons, hp]
        rfl
      · intro t ht
        rw [ht] at hp
        simpa using hp
    · cases hh : p.hi with
      | none => rw [hh] at hp; exact (hp rfl).elim
      | some t =>
        rw [hh] at hp h3
        obtain ⟨h4, h5, h6⟩ := h3
        have ht : t.key ≤ k := by simpa using hp
        obtain ⟨A, q, B, lo', e1, e2, e3, e4, e5⟩ := ih h6 ht
        refine ⟨p :: A, q, B, lo', by rw [e1]; rfl, ?_, ⟨h1, h2, t, hh, h4, h5, e3⟩, e4, e5⟩
        unfold pageFor at e2 ⊢
        rw [List.findIdx_cons, hh]
        have : (Option.all (fun t => decide (k < t.key)) (some t)) = false := by
          simpa using ht
        rw [this, cond_false, e2]
        rfl

theorem pageFor_ge {lo up k : Nat} {A B : List Page} (h : Upto lo A up) (hk : lo ≤ k)
    (hp : A.length ≤ pageFor k (A ++ B)) : up ≤ k := by
  induction A generalizing lo with
  | nil => cases h; exact hk
  | cons p A ih =>
    obtain ⟨h1, h2, t, h3, h4, h5, h6⟩ := h
    unfold pageFor at hp
    rw [List.cons_append, List.findIdx_cons, h3] at hp
    by_cases hc : k < t.key
    · have : (Option.all (fun t => decide (k < t.key)) (some t)) = true := by simpa using hc
      rw [this, cond_true] at hp
      simp at hp
    · have : (Option.all (fun t => decide (k < t.key)) (some t)) = false := by simpa using hc
      rw [this, cond_false, List.length_cons] at hp
      exact ih h6 (Nat.le_of_not_lt hc) (Nat.le_of_succ_le_succ hp)

/-- Pages in place of one. -/
theorem Ranged.put {lo lo' : Nat} {A B : List Page} {p : Page} {qs : List Page}
    (ha : Upto lo A lo') (hp : Ranged lo' (p :: B)) (hd : Divided p.hi qs)
    (hs : Sorted (itemsOf qs)) (hlo : ∀ x ∈ itemsOf qs, lo' ≤ x.row.tup.key)
    (hhi : ∀ t, p.hi = some t → ∀ x ∈ itemsOf qs, x.row.tup.key < t.key) :
    Ranged lo (A ++ qs ++ B) := by
  rw [List.append_assoc]
  refine Ranged.append ha ?_
  obtain ⟨_, _, h3⟩ := hp
  match qs, hd with
  | [q], hd =>
    have e : itemsOf [q] = q.items := by simp [itemsOf]
    rw [e] at hs hlo hhi
    refine ⟨hlo, hs, ?_⟩
    change match q.hi with | none => _ | some t => _
    rw [show q.hi = p.hi from hd]
    cases hh : p.hi with
    | none => rw [hh] at h3; exact h3
    | some t => rw [hh] at h3; exact ⟨h3.1, hhi t hh, h3.2.2⟩
  | [l, r], hd =>
    obtain ⟨d1, d2, x, d3, d4⟩ := hd
    have e : itemsOf [l, r] = l.items ++ r.items := by simp [itemsOf]
    rw [e] at hs hlo hhi
    obtain ⟨s1, s2, s3⟩ := sorted_append.1 hs
    have hxr : x ∈ r.items := List.mem_of_mem_head? (by rw [d3]; rfl)
    have hge : ∀ y ∈ r.items, x.row.tup.key ≤ y.row.tup.key := by
      cases hr : r.items with
      | nil => rw [hr] at hxr; cases hxr
      | cons z zs =>
        rw [hr] at d3 s2
        cases d3
        intro y hy
        rcases List.mem_cons.1 hy with rfl | hy
        · exact Nat.le_refl _
        · exact Nat.le_of_lt ((List.pairwise_cons.1 s2).1 y hy)
    refine ⟨fun y hy => hlo y (List.mem_append_left _ hy), s1, ?_⟩
    change match l.hi with | none => _ | some t => _
    rw [d4]
    refine ⟨hlo x (List.mem_append_right _ hxr), fun y hy => s3 y hy x hxr, hge, s2, ?_⟩
    rw [d1]
    cases hh : p.hi with
    | none => rw [hh] at h3; exact h3
    | some t =>
      rw [hh] at h3
      exact ⟨Nat.le_of_lt (hhi t hh x (List.mem_append_right _ hxr)),
        fun y hy => hhi t hh y (List.mem_append_right _ hy), h3.2.2⟩

/-- A row found through the descent is the one with the key. -/
theorem rowAt_spec {p : Page} {k : Nat} (hs : Sorted p.items) (x : Item) :
    rowAt p k (lower k p.items) = some x ↔ x ∈ p.items ∧ x.row.tup.key = k := by
  unfold rowAt
  constructor
  · intro h
    obtain ⟨h1, h2⟩ := Option.filter_eq_some_iff.1 h
    exact ⟨List.mem_of_getElem? h1, by simpa using h2⟩
  · rintro ⟨h1, h2⟩
    have key : p.items[lower k p.items]? = some x := by
      generalize p.items = l at *
      unfold lower
      induction l with
      | nil => cases h1
      | cons y l ih =>
        rw [List.takeWhile_cons]
        by_cases hy : y.row.tup.key < k
        · rw [if_pos (by simpa using hy)]
          rcases List.mem_cons.1 h1 with rfl | h1
          · omega
          · rw [List.length_cons, List.getElem?_cons_succ]
            exact ih (List.pairwise_cons.1 hs).2 h1
        · rw [if_neg (by simpa using hy)]
          rcases List.mem_cons.1 h1 with rfl | h1
          · rfl
          · have := (List.pairwise_cons.1 hs).1 x h1
            omega
    rw [key]
    simp [Option.filter, h2]

theorem sorted_inj {l : List Item} (hs : Sorted l) {x y : Item} (hx : x ∈ l) (hy : y ∈ l)
    (h : x.row.tup.key = y.row.tup.key) : x = y := by
  induction l with
  | nil => cases hx
  | cons z l ih =>
    obtain ⟨h1, h2⟩ := List.pairwise_cons.1 hs
    rcases List.mem_cons.1 hx with rfl | hx' <;> rcases List.mem_cons.1 hy with rfl | hy'
    · rfl
    · have := h1 y hy'; omega
    · have := h1 x hx'; omega
    · exact ih h2 hx' hy'

end Verif.PageSplit
