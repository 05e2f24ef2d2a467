import Verif.PageSplit.Level

/-! # The leaf level keeps its rows: changes in place, merges, all operations -/

namespace Verif.PageSplit

/-! ## Changes in place -/

/-- The change of one row as a change of all. -/
def atKey (k : Nat) (f : Item → Option Item) (x : Item) : Option Item :=
  if x.row.tup.key = k then f x else some x

theorem flatten_filterMap (g : Item → Option Item) (cs : List (List Item)) :
    (cs.map (fun c => c.filterMap g)).flatten = cs.flatten.filterMap g := by
  induction cs with
  | nil => rfl
  | cons c cs ih => rw [List.map_cons, List.flatten_cons, List.flatten_cons, List.filterMap_append, ih]

theorem items_change (k : Nat) (f : Item → Option Item) (p : Page) :
    (p.change k f).items = p.items.filterMap (atKey k f) := flatten_filterMap _ _

theorem itemsOf_change (k : Nat) (f : Item → Option Item) (ps : List Page) :
    itemsOf (ps.map (Page.change k f)) = (itemsOf ps).filterMap (atKey k f) := by
  induction ps with
  | nil => rfl
  | cons p ps ih =>
    rw [itemsOf, List.map_cons, List.map_cons, List.flatten_cons, items_change]
    rw [itemsOf] at ih
    rw [ih]
    change _ = (p.items ++ itemsOf ps).filterMap (atKey k f)
    rw [List.filterMap_append]

/-- What the change of a row must respect. -/
def Gentle (l : List Item) (k : Nat) (f : Item → Option Item) : Prop :=
  ∀ x ∈ l, x.row.tup.key = k → ∀ y, f x = some y → y.row.tup.key = k ∧ y.size ≤ x.size ∧
    ItemOk true y ∧ y.row.tup.klen = x.row.tup.klen

theorem atKey_gentle {l : List Item} {k : Nat} {f : Item → Option Item} (h : Gentle l k f)
    (hl : ∀ x ∈ l, ItemOk true x) {x y : Item} (hx : x ∈ l) (hy : atKey k f x = some y) :
    y.row.tup.key = x.row.tup.key ∧ y.size ≤ x.size ∧ ItemOk true y ∧
      y.row.tup.klen = x.row.tup.klen := by
  unfold atKey at hy
  split at hy
  · rename_i hk
    rw [hk]
    exact h x hx hk y hy
  · cases hy
    exact ⟨rfl, Nat.le_refl _, hl x hx, rfl⟩

theorem filterMap_sizes {l : List Item} {g : Item → Option Item}
    (h : ∀ x ∈ l, ∀ y, g x = some y → y.size ≤ x.size) :
    sizes (l.filterMap g) ≤ sizes l ∧ (l.filterMap g).length ≤ l.length := by
  induction l with
  | nil => exact ⟨Nat.le_refl _, Nat.le_refl _⟩
  | cons x l ih =>
    obtain ⟨h1, h2⟩ := ih (fun z hz => h z (List.mem_cons_of_mem _ hz))
    rw [List.filterMap_cons]
    cases hg : g x with
    | none =>
      dsimp only
      unfold sizes at *
      rw [List.map_cons, List.sum_cons, List.length_cons]
      omega
    | some y =>
      have := h x List.mem_cons_self y hg
      dsimp only
      unfold sizes at *
      rw [List.map_cons, List.sum_cons, List.length_cons, List.map_cons, List.sum_cons,
        List.length_cons]
      omega

theorem filterMap_keys {l : List Item} {g : Item → Option Item}
    (h : ∀ x ∈ l, ∀ y, g x = some y → y.row.tup.key = x.row.tup.key) (hs : Sorted l) :
    Sorted (l.filterMap g) := by
  induction l with
  | nil => exact hs
  | cons x l ih =>
    obtain ⟨h1, h2⟩ := List.pairwise_cons.1 hs
    have ih := ih (fun z hz => h z (List.mem_cons_of_mem _ hz)) h2
    rw [List.filterMap_cons]
    cases hg : g x with
    | none => exact ih
    | some y =>
      refine List.pairwise_cons.2 ⟨?_, ih⟩
      intro z hz
      obtain ⟨w, hw, hgw⟩ := List.mem_filterMap.1 hz
      rw [h x List.mem_cons_self y hg, h w (List.mem_cons_of_mem _ hw) z hgw]
      exact h1 w hw

theorem chunks_change (cs : List (List Item)) (g : Item → Option Item)
    (h : ∀ x ∈ cs.flatten, ∀ y, g x = some y → y.size ≤ x.size) :
    ((cs.map (fun c => c.filterMap g)).map chunkSize).sum ≤ (cs.map chunkSize).sum := by
  induction cs with
  | nil => exact Nat.le_refl _
  | cons c cs ih =>
    have h1 := ih (fun x hx => h x (by rw [List.flatten_cons]; exact List.mem_append_right _ hx))
    obtain ⟨h2, h3⟩ := filterMap_sizes (l := c) (g := g)
      (fun x hx => h x (by rw [List.flatten_cons]; exact List.mem_append_left _ hx))
    have h4 : arr (c.filterMap g).length ≤ arr c.length := by
      unfold arr; exact ma_mono (by omega)
    simp only [List.map_cons, List.sum_cons]
    unfold chunkSize at *
    omega

theorem change_page {p : Page} {k : Nat} {f : Item → Option Item} (hp : p.Ok) (hl : p.leaf = true)
    (hf : Gentle p.items k f) : (p.change k f).Ok ∧ (p.change k f).leaf = true := by
  have hit : ∀ x ∈ p.items, ItemOk true x := by
    intro x hx; have := hp.items x hx; rwa [hl] at this
  have hg := @atKey_gentle _ _ _ hf hit
  have hmem : ∀ y ∈ (p.change k f).items, ∃ x ∈ p.items, atKey k f x = some y := by
    intro y hy
    rw [items_change] at hy
    exact List.mem_filterMap.1 hy
  refine ⟨⟨hp.start, ?_, ?_, ?_, hp.hikey, ?_, hp.hikey_le, hp.maxKey, ?_⟩, hl⟩
  · refine Nat.le_trans ?_ hp.room
    unfold Page.dataSize
    exact Nat.add_le_add_left (chunks_change p.chunks (atKey k f)
      (fun x hx y hy => (hg hx hy).2.1)) _
  · intro y hy
    obtain ⟨x, hx, e⟩ := hmem y hy
    have := (hg hx e).2.2.1
    change ItemOk p.leaf y
    rw [hl]; exact this
  · intro h
    rw [show (p.change k f).leaf = p.leaf from rfl, hl] at h
    cases h
  · intro y hy
    have hy' : y ∈ (p.change k f).items := keyed_sub _ _ y hy
    obtain ⟨x, hx, e⟩ := hmem y hy'
    rw [(hg hx e).2.2.2]
    exact hp.keys x (by rw [hl]; exact hx)
  · intro h
    have : p.chunks.map (fun c => c.filterMap (atKey k f)) = [] := h
    exact hp.chunks (List.map_eq_nil_iff.1 this)

theorem change_ranged {lo : Nat} {ps : List Page} {k : Nat} {f : Item → Option Item}
    (h : Ranged lo ps)
    (hf : ∀ x ∈ itemsOf ps, ∀ y, atKey k f x = some y → y.row.tup.key = x.row.tup.key) :
    Ranged lo (ps.map (Page.change k f)) := by
  induction ps generalizing lo with
  | nil => exact h
  | cons p ps ih =>
    obtain ⟨h1, h2, h3⟩ := h
    have hfp : ∀ x ∈ p.items, ∀ y, atKey k f x = some y → y.row.tup.key = x.row.tup.key :=
      fun x hx => hf x (by rw [itemsOf, List.map_cons, List.flatten_cons]; exact List.mem_append_left _ hx)
    have hmem : ∀ y ∈ (p.change k f).items, ∃ x ∈ p.items, y.row.tup.key = x.row.tup.key := by
      intro y hy
      rw [items_change] at hy
      obtain ⟨x, hx, e⟩ := List.mem_filterMap.1 hy
      exact ⟨x, hx, hfp x hx y e⟩
    rw [List.map_cons]
    refine ⟨?_, ?_, ?_⟩
    · intro y hy
      obtain ⟨x, hx, e⟩ := hmem y hy
      rw [e]; exact h1 x hx
    · rw [items_change]; exact filterMap_keys hfp h2
    · change match p.hi with | none => _ | some t => _
      cases hh : p.hi with
      | none =>
        rw [hh] at h3
        dsimp only at h3 ⊢
        rw [h3]; rfl
      | some t =>
        rw [hh] at h3
        obtain ⟨g1, g2, g3⟩ := h3
        refine ⟨g1, ?_, ih g3 ?_⟩
        · intro y hy
          obtain ⟨x, hx, e⟩ := hmem y hy
          rw [e]; exact g2 x hx
        · intro x hx
          exact hf x (by rw [itemsOf, List.map_cons, List.flatten_cons]; exact List.mem_append_right _ hx)

theorem LInv.items {kl : Nat → Nat} {s : Lev} (hi : LInv kl s) :
    ∀ x ∈ itemsOf s.pages, ItemOk true x := by
  intro x hx
  obtain ⟨l, hl, hxl⟩ := List.mem_flatten.1 hx
  obtain ⟨p, hp, rfl⟩ := List.mem_map.1 hl
  have := (hi.pages p hp).1.items x hxl
  rwa [(hi.pages p hp).2] at this

theorem LInv.change {kl : Nat → Nat} {s : Lev} (hi : LInv kl s) {k : Nat} {f : Item → Option Item}
    (hf : Gentle (itemsOf s.pages) k f)
    (hr : ∀ x ∈ itemsOf s.pages, x.row.tup.key = k → ∀ y, f x = some y → RowOk kl y.row) :
    LInv kl (s.change k f) := by
  refine ⟨?_, ?_, ?_⟩
  · intro q hq
    obtain ⟨p, hp, rfl⟩ := List.mem_map.1 hq
    refine change_page (hi.pages p hp).1 (hi.pages p hp).2 ?_
    intro x hx
    exact hf x (List.mem_flatten.2 ⟨_, List.mem_map.2 ⟨p, hp, rfl⟩, hx⟩)
  · exact change_ranged hi.ranged (fun x hx y hy => (atKey_gentle hf hi.items hx hy).1)
  · intro y hy
    have hy' : y ∈ (itemsOf s.pages).filterMap (atKey k f) := by
      rw [← itemsOf_change]; exact hy
    obtain ⟨x, hx, e⟩ := List.mem_filterMap.1 hy'
    unfold atKey at e
    split at e
    · rename_i hk
      exact hr x hx hk y e
    · cases e; exact hi.rows _ hx

theorem find_spec {kl : Nat → Nat} {s : Lev} (hi : LInv kl s) (k : Nat) (x : Item) :
    s.find k = some x ↔ x ∈ itemsOf s.pages ∧ x.row.tup.key = k := by
  have hs := hi.ranged.sorted.1
  unfold Lev.find
  constructor
  · intro h
    exact ⟨List.mem_of_find?_eq_some h, by simpa using List.find?_some h⟩
  · rintro ⟨h1, h2⟩
    cases hf : (itemsOf s.pages).find? (fun x => x.row.tup.key == k) with
    | none =>
      have := List.find?_eq_none.1 hf _ h1
      simp [h2] at this
    | some y =>
      have h3 := List.mem_of_find?_eq_some hf
      have h4 : y.row.tup.key = k := by simpa using List.find?_some hf
      rw [sorted_inj hs h1 h3 (by rw [h2, h4])]

/-! ## Merges -/

theorem Ranged.cut {lo : Nat} {A B : List Page} (h : Ranged lo (A ++ B)) (hb : B ≠ []) :
    ∃ up, Upto lo A up ∧ Ranged up B := by
  induction A generalizing lo with
  | nil => exact ⟨lo, rfl, h⟩
  | cons p A ih =>
    obtain ⟨h1, h2, h3⟩ := h
    cases hh : p.hi with
    | none =>
      rw [hh] at h3
      have : A ++ B = [] := h3
      exact (hb (List.append_eq_nil_iff.1 this).2).elim
    | some t =>
      rw [hh] at h3
      obtain ⟨g1, g2, g3⟩ := h3
      obtain ⟨up, u1, u2⟩ := ih g3
      exact ⟨up, ⟨h1, h2, t, hh, g1, g2, u1⟩, u2⟩

theorem pages_two {ps : List Page} {i : Nat} {l r : Page} (h1 : ps[i]? = some l)
    (h2 : ps[i + 1]? = some r) : ps = ps.take i ++ l :: r :: ps.drop (i + 2) := by
  obtain ⟨a1, a2⟩ := List.getElem?_eq_some_iff.1 h1
  obtain ⟨b1, b2⟩ := List.getElem?_eq_some_iff.1 h2
  rw [← a2, ← b2, List.getElem_cons_drop, List.getElem_cons_drop, List.take_append_drop]

theorem stepMerge_ok {kl : Nat → Nat} {s : Lev} (hi : LInv kl s) (o : Orc) (vacR : Nat) {i : Nat}
    (l1 l2 : List Nat) (csn : Option Nat) {l r : Page} (hl : s.pages[i]? = some l)
    (hr : s.pages[i + 1]? = some r) :
    ∃ qs, mergePages o vacR l r (s.com.only l1) (s.com.only (l1 ++ l2)) (csn.map (· + s.next)) = .ok qs ∧
      LInv kl { s with pages := s.pages.take i ++ qs ++ s.pages.drop (i + 2) } ∧
      Hold s.com (itemsOf s.pages) (itemsOf (s.pages.take i ++ qs ++ s.pages.drop (i + 2))) := by
  have hp := pages_two hl hr
  generalize hA : s.pages.take i = A at *
  generalize hB : s.pages.drop (i + 2) = B at *
  have hrg := hi.ranged
  rw [hp] at hrg
  obtain ⟨up, hup, hrest⟩ := hrg.cut (by simp)
  obtain ⟨m1, m2, m3⟩ := hrest
  cases hh : l.hi with
  | none => rw [hh] at m3; cases m3
  | some t =>
    rw [hh] at m3
    obtain ⟨g1, g2, g3⟩ := m3
    have g3' := g3
    obtain ⟨n1, n2, n3⟩ := g3
    have hlp := hi.pages l (by rw [hp]; simp)
    have hrp := hi.pages r (by rw [hp]; simp)
    rcases mergePages_ok o vacR (csn := csn.map (· + s.next)) hlp.1 hrp.1 (by rw [hlp.2, hrp.2]) (by rw [hh]; simp)
      (only_le s.com l1 l2) (fun h => by rw [hlp.2] at h; cases h) with h | ⟨q, h, q1, q2, q3, q4, _⟩
    · refine ⟨_, h, ?_, ?_⟩
      · have : A ++ [l, r] ++ B = s.pages := by rw [hp]; simp
        rw [this]; exact hi
      · have : A ++ [l, r] ++ B = s.pages := by rw [hp]; simp
        rw [this]; exact .refl _ _
    · have q4 := q4 hlp.2
      have kl' := keep_kept (s.com.only (l1 ++ l2)) (csn.map (· + s.next)) l.items
      have kr' := keep_kept (s.com.only (l1 ++ l2)) (csn.map (· + s.next)) r.items
      have hmem : ∀ y ∈ q.items, (∃ x ∈ l.items, x.row = y.row) ∨ ∃ x ∈ r.items, x.row = y.row := by
        intro y hy
        rw [q4] at hy
        rcases List.mem_append.1 hy with hy | hy
        · obtain ⟨x, hx, hc⟩ := kl'.mem y hy
          exact .inl ⟨x, hx, hc.row.symm⟩
        · obtain ⟨x, hx, hc⟩ := kr'.mem y hy
          exact .inr ⟨x, hx, hc.row.symm⟩
      refine ⟨[q], h, ⟨?_, ?_, ?_⟩, ?_⟩
      · intro q' hq'
        simp only [List.mem_append, List.mem_singleton] at hq'
        rcases hq' with (hq' | hq') | hq'
        · exact hi.pages q' (by rw [hp]; simp [hq'])
        · subst hq'; exact ⟨q1, by rw [q2]; exact hlp.2⟩
        · exact hi.pages q' (by rw [hp]; simp [hq'])
      · have e : A ++ [q] ++ B = A ++ (q :: B) := by simp
        change Ranged 0 (A ++ [q] ++ B)
        rw [e]
        refine Ranged.append hup ⟨?_, ?_, ?_⟩
        · intro y hy
          rcases hmem y hy with ⟨x, hx, hc⟩ | ⟨x, hx, hc⟩
          · rw [← hc]; exact m1 x hx
          · rw [← hc]; exact Nat.le_trans g1 (n1 x hx)
        · rw [q4]
          refine Sorted.sub (l := l.items ++ r.items) ?_ (sorted_append.2 ⟨m2, n2,
            fun x hx y hy => Nat.lt_of_lt_of_le (g2 x hx) (n1 y hy)⟩)
          rw [List.map_append, List.map_append]
          exact kl'.sub.append kr'.sub
        · rw [q3]
          cases hrh : r.hi with
          | none => rw [hrh] at n3; exact n3
          | some u =>
            rw [hrh] at n3
            obtain ⟨o1, o2, o3⟩ := n3
            refine ⟨Nat.le_trans g1 o1, ?_, o3⟩
            intro y hy
            rcases hmem y hy with ⟨x, hx, hc⟩ | ⟨x, hx, hc⟩
            · rw [← hc]; exact Nat.lt_of_lt_of_le (g2 x hx) o1
            · rw [← hc]; exact o2 x hx
      · intro y hy
        rcases mem_itemsOf_mid.1 hy with h | hy
        · refine hi.rows y ?_
          rw [hp]
          simp only [itemsOf, List.map_append, List.flatten_append, List.map_cons,
            List.flatten_cons, List.mem_append]
          rcases h with h | h
          · exact .inl h
          · exact .inr (.inr (.inr h))
        · have hy' : y ∈ q.items := by simpa [itemsOf] using hy
          rcases hmem y hy' with ⟨x, hx, hc⟩ | ⟨x, hx, hc⟩
          · rw [← hc]
            refine hi.rows x ?_
            rw [hp]
            simp only [itemsOf, List.map_append, List.flatten_append, List.map_cons,
              List.flatten_cons, List.mem_append]
            exact .inr (.inl hx)
          · rw [← hc]
            refine hi.rows x ?_
            rw [hp]
            simp only [itemsOf, List.map_append, List.flatten_append, List.map_cons,
              List.flatten_cons, List.mem_append]
            exact .inr (.inr (.inl hx))
      · have h1 := (Kept.hold (only_com s.com (l1 ++ l2)) kl').append
          (Kept.hold (only_com s.com (l1 ++ l2)) kr')
        refine Hold.same ?_ ?_ (((Hold.refl s.com (itemsOf A)).append h1).append
          (Hold.refl s.com (itemsOf B)))
        · intro x
          rw [hp]
          simp only [itemsOf, List.map_append, List.flatten_append, List.map_cons,
            List.flatten_cons, List.mem_append, or_assoc]
        · intro x
          rw [mem_itemsOf_mid]
          simp only [List.mem_append, itemsOf, List.map_cons, List.map_nil, List.flatten_cons,
            List.flatten_nil, List.append_nil, q4]
          constructor
          · rintro ((h | h) | h)
            · exact .inl (.inl h)
            · exact .inr h
            · exact .inl (.inr h)
          · rintro ((h | h) | h)
            · exact .inl (.inl h)
            · exact .inr h
            · exact .inl (.inr h)

end Verif.PageSplit
