import Verif.Ucm.Model

/-! Lemmas and the invariant of the usage count map. -/

namespace Verif.Ucm

/-! ## Counting -/

theorem countP_range_change (f f' : Nat → Bool) (c : Nat) :
    ∀ n, c < n → (∀ x, x ≠ c → f' x = f x) →
    (List.range n).countP f' + (f c).toNat = (List.range n).countP f + (f' c).toNat := by
  intro n
  induction n with
  | zero => intro h; omega
  | succ n ih =>
    intro h hne
    rw [List.range_succ, List.countP_append, List.countP_append]
    by_cases hc : c = n
    · subst hc
      have : (List.range c).countP f' = (List.range c).countP f := by
        apply List.countP_congr
        intro x hx
        have := List.mem_range.1 hx
        rw [hne x (by omega)]
      rw [this]
      simp only [List.countP_cons, List.countP_nil]
      cases f c <;> cases f' c <;> simp <;> omega
    · have := ih (by omega) hne
      have e : f' n = f n := hne n (by omega)
      simp only [List.countP_cons, List.countP_nil, e]
      omega

theorem count15_change {f f' : Nat → Bool} {c : Nat} (h : c < 15)
    (hne : ∀ x, x ≠ c → f' x = f x) :
    count15 f' + (f c).toNat = count15 f + (f' c).toNat :=
  countP_range_change f f' c 15 h hne

theorem count15_congr {f f' : Nat → Bool} (h : ∀ x, x < 15 → f' x = f x) :
    count15 f' = count15 f := by
  unfold count15
  apply List.countP_congr
  intro x hx
  rw [h x (List.mem_range.1 hx)]

theorem count15_pos {f : Nat → Bool} : 0 < count15 f ↔ ∃ c, c < 15 ∧ f c = true := by
  unfold count15
  rw [List.countP_pos_iff]
  constructor
  · rintro ⟨a, h1, h2⟩; exact ⟨a, List.mem_range.1 h1, h2⟩
  · rintro ⟨a, h1, h2⟩; exact ⟨a, List.mem_range.2 h1, h2⟩

theorem countP_set' {α : Type} (q : α → Bool) (y : α) :
    ∀ (l : List α) (k : Nat) (x : α), l[k]? = some x →
    (l.set k y).countP q + (q x).toNat = l.countP q + (q y).toNat := by
  intro l
  induction l with
  | nil => intro k x h; simp at h
  | cons a l ih =>
    intro k x h
    cases k with
    | zero =>
      simp only [List.getElem?_cons_zero, Option.some.injEq] at h
      subst h
      simp only [List.set_cons_zero, List.countP_cons]
      cases q a <;> cases q y <;> simp
    | succ k =>
      simp only [List.getElem?_cons_succ] at h
      simp only [List.set_cons_succ, List.countP_cons]
      have := ih k x h
      omega

theorem countP_eraseIdx' {α : Type} (q : α → Bool) :
    ∀ (l : List α) (k : Nat) (x : α), l[k]? = some x →
    (l.eraseIdx k).countP q + (q x).toNat = l.countP q := by
  intro l
  induction l with
  | nil => intro k x h; simp at h
  | cons a l ih =>
    intro k x h
    cases k with
    | zero =>
      simp only [List.getElem?_cons_zero, Option.some.injEq] at h
      subst h
      simp only [List.eraseIdx_cons_zero, List.countP_cons]
      cases q a <;> simp
    | succ k =>
      simp only [List.getElem?_cons_succ] at h
      simp only [List.eraseIdx_cons_succ, List.countP_cons]
      have := ih k x h
      omega

/-! ## Geometry -/

/-- First index of depth `d`. -/
def lvl : Nat → Nat
  | 0 => 0
  | d + 1 => (lvl d + 1) * 15

theorem lvl_dvd (d : Nat) : lvl d % 15 = 0 := by
  cases d with
  | zero => rfl
  | succ d => exact Nat.mul_mod_left _ _

theorem lvl_succ (d : Nat) : lvl (d + 1) = lvl d + 15 ^ (d + 1) := by
  induction d with
  | zero => decide
  | succ d ih =>
    rw [show lvl (d + 1 + 1) = (lvl (d + 1) + 1) * 15 from rfl]
    rw [Nat.pow_succ 15 (d + 1)]
    have e : lvl (d + 1) = (lvl d + 1) * 15 := rfl
    omega

theorem estLoop_spec : ∀ (n d : Nat), ∃ e,
    estLoop n (lvl d) (15 ^ (d + 1)) = (lvl (d + e), 15 ^ (d + e + 1)) ∧
    n ≤ 15 ^ (e + 1) := by
  intro n
  induction n using Nat.strongRecOn with
  | _ n ih =>
    intro d
    rw [estLoop]
    by_cases h : n > 15
    · rw [if_pos h]
      obtain ⟨e, h1, h2⟩ := ih ((n + 14) / 15) (by omega) (d + 1)
      refine ⟨e + 1, ?_, ?_⟩
      · rw [show (lvl d + 1) * 15 = lvl (d + 1) from rfl,
          show 15 ^ (d + 1) * 15 = 15 ^ (d + 1 + 1) from (Nat.pow_succ ..).symm, h1]
        rw [show d + 1 + e = d + (e + 1) by omega]
      · rw [Nat.pow_succ]; omega
    · rw [if_neg h]
      exact ⟨0, rfl, by rw [Nat.zero_add, Nat.pow_one]; omega⟩

/-- The shape of the tree: there is a depth `D` of the leaf words. -/
structure Shape (g : Geom) (D : Nat) : Prop where
  nonLeaf : g.nonLeaf = lvl D
  rootFactor : g.rootFactor = 15 ^ (D + 1)
  total : g.total = g.nonLeaf + (g.size + 14) / 15
  le : g.total ≤ lvl (D + 1)

theorem geom_shape (size : Nat) : ∃ D, Shape (geom size) D := by
  obtain ⟨e, h1, h2⟩ := estLoop_spec ((size + 14) / 15) 0
  refine ⟨e, ?_⟩
  rw [Nat.zero_add] at h1
  have h1' : estLoop ((size + 14) / 15) 0 15 = (lvl e, 15 ^ (e + 1)) := by
    rw [show lvl 0 = 0 from rfl, Nat.pow_one, Nat.zero_add] at h1; exact h1
  constructor
  · simp only [geom, h1']
  · simp only [geom, h1']
  · simp only [geom]
  · simp only [geom, h1', lvl_succ]; omega

theorem lvl_le_of_lt_nonLeaf {g : Geom} {D : Nat} (sh : Shape g D) {i : Nat}
    (h : 15 ≤ i) (ht : i < g.total) : i / 15 - 1 < g.nonLeaf := by
  have h1 := sh.le
  rw [sh.nonLeaf]
  have : lvl (D + 1) = (lvl D + 1) * 15 := rfl
  omega

/-! ## The invariant -/

/-- What word `i` should count for level `l`: children with a non-zero counter of
that level, or pages with that level. -/
def below1 (g : Geom) (s : State) (i l : Nat) : Nat :=
  if i < g.nonLeaf then
    count15 (fun c => decide ((i + 1) * 15 + c < g.total ∧ s.cnt ((i + 1) * 15 + c) l ≠ 0))
  else
    count15 (fun c => decide ((i - g.nonLeaf) * 15 + c < g.size ∧
      s.page ((i - g.nonLeaf) * 15 + c) = l))

/-- Running updates about to take one from (`prev`) counter `l` of word `i`. -/
def taking (s : State) (i l : Nat) : Nat :=
  s.pend.countP (fun u => decide (u.node = i ∧ u.prev = l))

/-- Running updates about to add one to (`next`) counter `l` of word `i`. -/
def adding (s : State) (i l : Nat) : Nat :=
  s.pend.countP (fun u => decide (u.node = i ∧ u.next = l))

structure Inv (g : Geom) (s : State) : Prop where
  bal : ∀ i l, i < g.total → l < 8 → s.cnt i l + adding s i l = below1 g s i l + taking s i l
  fits : ∀ i l, l < 8 → s.cnt i l ≤ 15
  node : ∀ u ∈ s.pend, u.node < g.total
  diff : ∀ u ∈ s.pend, u.prev = u.next → u.prev = INVALID
  lv : ∀ u ∈ s.pend, (u.prev < 8 ∨ u.prev = INVALID) ∧ (u.next < 8 ∨ u.next = INVALID)
  pg : ∀ p, s.page p < 8 ∨ s.page p = INVALID

theorem count15_le (f : Nat → Bool) : count15 f ≤ 15 := by
  unfold count15
  have := List.countP_le_length (p := f) (l := List.range 15)
  rwa [List.length_range] at this

theorem initFree_le (g : Geom) (i : Nat) : initFree g i ≤ 15 := by
  rw [initFree]
  split
  · exact count15_le _
  · split <;> omega

theorem count15_lt (m : Nat) : count15 (fun c => decide (c < m)) = min m 15 := by
  by_cases h : m < 15
  · have : m = 0 ∨ m = 1 ∨ m = 2 ∨ m = 3 ∨ m = 4 ∨ m = 5 ∨ m = 6 ∨ m = 7 ∨ m = 8 ∨ m = 9 ∨
      m = 10 ∨ m = 11 ∨ m = 12 ∨ m = 13 ∨ m = 14 := by omega
    rcases this with h | h | h | h | h | h | h | h | h | h | h | h | h | h | h <;> subst h <;> decide
  · have : count15 (fun c => decide (c < m)) = count15 (fun _ => true) :=
      count15_congr (fun x hx => by simp; omega)
    rw [this, show count15 (fun _ => true) = 15 from by decide]; omega

theorem count15_false : count15 (fun _ => false) = 0 := by decide

theorem init_cnt (g : Geom) (i l : Nat) :
    (initState g).cnt i l = if l = FREE then initFree g i else 0 := rfl

theorem init_page (g : Geom) (p : Nat) : (initState g).page p = FREE := rfl

theorem init_inv {g : Geom} {D : Nat} (sh : Shape g D) : Inv g (initState g) := by
  constructor
  · intro i l hi hl
    have e1 : adding (initState g) i l = 0 := rfl
    have e2 : taking (initState g) i l = 0 := rfl
    rw [e1, e2, Nat.add_zero, Nat.add_zero]
    unfold below1
    simp only [init_cnt, init_page]
    by_cases hn : i < g.nonLeaf
    · rw [if_pos hn]
      by_cases hl7 : l = FREE
      · simp only [if_pos hl7]
        rw [initFree, if_pos hn]
        apply count15_congr
        intro c _
        by_cases ht : (i + 1) * 15 + c < g.total
        · simp [ht]
        · have hz : initFree g ((i + 1) * 15 + c) = 0 := by
            have hnl : ¬ (i + 1) * 15 + c < g.nonLeaf := by
              have := sh.total
              omega
            rw [initFree, if_neg hnl, if_neg ht]
          simp [hz]
      · simp only [if_neg hl7]
        rw [← count15_false]
        apply count15_congr
        intro c _
        simp [count15_false]
    · rw [if_neg hn]
      by_cases hl7 : l = FREE
      · simp only [if_pos hl7]
        rw [initFree, if_neg hn, if_pos hi, ← count15_lt]
        apply count15_congr
        intro c _
        simp [hl7]; omega
      · simp only [if_neg hl7]
        rw [← count15_false]
        apply count15_congr
        intro c _
        simp [Ne.symm hl7]
  · intro i l _
    show (if l = FREE then initFree g i else 0) ≤ 15
    split
    · exact initFree_le g i
    · omega
  · intro u h; cases h
  · intro u h; cases h
  · intro u h; cases h
  · intro p; left; rw [init_page]; decide

theorem toNat_decide (q : Prop) [Decidable q] : (decide q).toNat = if q then 1 else 0 := by
  by_cases h : q <;> simp [h]

theorem below1_leaf_change {g : Geom} {s s' : State} {p v i l : Nat} (hp : p < g.size)
    (hc : s'.cnt = s.cnt)
    (hpg : s'.page = fun q => if q = p then v else s.page q) :
    below1 g s' i l + (if i = g.nonLeaf + p / 15 ∧ s.page p = l then 1 else 0) =
      below1 g s i l + (if i = g.nonLeaf + p / 15 ∧ v = l then 1 else 0) := by
  unfold below1
  rw [hc]
  by_cases hn : i < g.nonLeaf
  · have : ¬ i = g.nonLeaf + p / 15 := by omega
    simp only [if_pos hn, this, false_and, if_false]
  · simp only [if_neg hn]
    by_cases hi : i = g.nonLeaf + p / 15
    · have hpp : (i - g.nonLeaf) * 15 + p % 15 = p := by omega
      have := count15_change
        (f := fun c => decide ((i - g.nonLeaf) * 15 + c < g.size ∧
          s.page ((i - g.nonLeaf) * 15 + c) = l))
        (f' := fun c => decide ((i - g.nonLeaf) * 15 + c < g.size ∧
          s'.page ((i - g.nonLeaf) * 15 + c) = l)) (c := p % 15) (by omega) (by
          intro x hx
          have : ¬ (i - g.nonLeaf) * 15 + x = p := by omega
          simp only [hpg, if_neg this])
      simp only [hpp, toNat_decide, hpg, if_true] at this
      simp only [hi, true_and, hp] at this ⊢
      simp only [hpg]
      exact this
    · simp only [hi, false_and, if_false, Nat.add_zero]
      apply count15_congr
      intro x hx
      have : ¬ (i - g.nonLeaf) * 15 + x = p := by omega
      simp only [hpg, if_neg this]

theorem moved_eq_or {f : Nat → Nat} {prev next l : Nat} (hl : l < 8)
    (hd : prev = next → prev = INVALID) (hr : ready f prev next) :
    (l = prev ∧ l ≠ next ∧ moved f prev next l + 1 = f l) ∨
    (l ≠ prev ∧ l = next ∧ moved f prev next l = f l + 1) ∨
    (l ≠ prev ∧ l ≠ next ∧ moved f prev next l = f l) := by
  have hI : l ≠ INVALID := by unfold INVALID; omega
  unfold moved
  unfold ready at hr
  by_cases h1 : l = prev
  · left
    have hn : l ≠ next := fun h => hI (by rw [h1]; exact hd (by rw [← h1, ← h]))
    have := hr.1 (by rw [← h1]; exact hI)
    rw [if_pos ⟨hI, h1⟩]
    subst h1
    exact ⟨rfl, hn, by omega⟩
  · right
    by_cases h2 : l = next
    · left
      exact ⟨h1, h2, by rw [if_neg (fun h => h1 h.2), if_pos ⟨hI, h2⟩]⟩
    · right
      exact ⟨h1, h2, by rw [if_neg (fun h => h1 h.2), if_neg (fun h => h2 h.2)]⟩

theorem below1_climb {g : Geom} {D : Nat} (sh : Shape g D) {s s' : State} {i0 i l : Nat}
    (hi0 : i0 < g.total)
    (hc : ∀ i, i ≠ i0 → s'.cnt i = s.cnt i) (hp : s'.page = s.page) :
    below1 g s' i l + (if 15 ≤ i0 ∧ i = i0 / 15 - 1 ∧ s.cnt i0 l ≠ 0 then 1 else 0) =
      below1 g s i l + (if 15 ≤ i0 ∧ i = i0 / 15 - 1 ∧ s'.cnt i0 l ≠ 0 then 1 else 0) := by
  unfold below1
  rw [hp]
  by_cases hn : i < g.nonLeaf
  · simp only [if_pos hn]
    by_cases hi : 15 ≤ i0 ∧ i = i0 / 15 - 1
    · obtain ⟨h15, hi⟩ := hi
      have hpp : (i + 1) * 15 + i0 % 15 = i0 := by omega
      have := count15_change
        (f := fun c => decide ((i + 1) * 15 + c < g.total ∧ s.cnt ((i + 1) * 15 + c) l ≠ 0))
        (f' := fun c => decide ((i + 1) * 15 + c < g.total ∧ s'.cnt ((i + 1) * 15 + c) l ≠ 0))
        (c := i0 % 15) (by omega) (by
          intro x hx
          have : (i + 1) * 15 + x ≠ i0 ∨ 15 ≤ x := by omega
          rcases this with this | this
          · simp only [hc _ this]
          · by_cases h : (i + 1) * 15 + x = i0
            · omega
            · simp only [hc _ h])
      simp only [hpp, toNat_decide] at this
      simp only [hi0, h15, hi, true_and] at this ⊢
      exact this
    · have h1 : ∀ q : Prop, (15 ≤ i0 ∧ i = i0 / 15 - 1 ∧ q) = False := by
        intro q; apply eq_false; intro h; exact hi ⟨h.1, h.2.1⟩
      simp only [h1, if_false, Nat.add_zero]
      apply count15_congr
      intro x hx
      have : (i + 1) * 15 + x ≠ i0 := by omega
      simp only [hc _ this]
  · have h1 : ∀ q : Prop, (15 ≤ i0 ∧ i = i0 / 15 - 1 ∧ q) = False := by
      intro q; apply eq_false; intro h
      have := lvl_le_of_lt_nonLeaf sh h.1 hi0
      omega
    simp only [if_neg hn, h1, if_false]

theorem parentUpd_prev {f : Nat → Nat} {u : Upd} {l : Nat} (hl : l < 8) :
    (parentUpd f u).prev = l ↔ u.prev = l ∧ moved f u.prev u.next l = 0 := by
  have hI : INVALID ≠ l := by unfold INVALID; omega
  unfold parentUpd
  dsimp only
  split
  · rename_i h
    constructor
    · intro e
      refine ⟨e, ?_⟩
      rcases h with h | h
      · exact absurd (h.symm.trans e) hI
      · rw [← e]; exact h
    · intro e; exact e.1
  · rename_i h
    constructor
    · intro e; exact absurd e hI
    · intro e
      exact absurd (Or.inr (by rw [e.1]; rw [e.1] at e; exact e.2)) h

theorem parentUpd_next {f : Nat → Nat} {u : Upd} {l : Nat} (hl : l < 8) :
    (parentUpd f u).next = l ↔ u.next = l ∧ f l = 0 := by
  have hI : INVALID ≠ l := by unfold INVALID; omega
  unfold parentUpd
  dsimp only
  split
  · rename_i h
    constructor
    · intro e
      refine ⟨e, ?_⟩
      rcases h with h | h
      · exact absurd (h.symm.trans e) hI
      · rw [← e]; exact h
    · intro e; exact e.1
  · rename_i h
    constructor
    · intro e; exact absurd e hI
    · intro e
      exact absurd (Or.inr (by rw [e.1]; exact e.2)) h

theorem step_inv {g : Geom} {D : Nat} (sh : Shape g D) {s : State} (inv : Inv g s)
    (o : Step) : Inv g (step g s o) := by
  cases o with
  | change p v =>
    unfold step
    dsimp only
    split
    · rename_i hpv
      obtain ⟨hp, hv⟩ := hpv
      split
      · exact inv
      · rename_i hne
        constructor
        · intro i l hi hl
          have hb := below1_leaf_change (g := g) (s := s) (s' := { s with
              page := fun q => if q = p then v else s.page q,
              pend := { node := g.nonLeaf + p / 15, prev := s.page p, next := v } :: s.pend })
              (p := p) (v := v) (i := i) (l := l) hp rfl rfl
          have hold := inv.bal i l hi hl
          simp only [adding, taking, List.countP_cons, decide_eq_true_eq] at hold ⊢
          simp only [eq_comm (a := g.nonLeaf + p / 15) (b := i)]
          omega
        · exact inv.fits
        · intro u hu
          rcases List.mem_cons.1 hu with hu | hu
          · subst hu
            show g.nonLeaf + p / 15 < g.total
            rw [sh.total]; omega
          · exact inv.node u hu
        · intro u hu
          rcases List.mem_cons.1 hu with hu | hu
          · subst hu; intro e; exact absurd e hne
          · exact inv.diff u hu
        · intro u hu
          rcases List.mem_cons.1 hu with hu | hu
          · subst hu; exact ⟨inv.pg p, hv⟩
          · exact inv.lv u hu
        · intro q
          show (if q = p then v else s.page q) < 8 ∨ (if q = p then v else s.page q) = INVALID
          split
          · exact hv
          · exact inv.pg q
    · exact inv
  | climb k =>
    unfold step
    dsimp only
    split
    · exact inv
    · rename_i u hk
      split
      · rename_i hr
        have hu : u ∈ s.pend := List.mem_of_getElem? hk
        have hn := inv.node u hu
        have hd := inv.diff u hu
        have hlv := inv.lv u hu
        constructor
        · intro i l hi hl
          have hb := below1_climb sh (s := s) (s' := { s with
              cnt := fun i => if i = u.node then moved (s.cnt i) u.prev u.next else s.cnt i,
              pend := if 15 ≤ u.node then s.pend.set k (parentUpd (s.cnt u.node) u)
                  else s.pend.eraseIdx k }) (i0 := u.node) (i := i) (l := l) hn
              (by intro j hj; dsimp only; rw [if_neg hj]) rfl
          have hold := inv.bal i l hi hl
          have hmv := moved_eq_or hl hd hr
          have hpa : ∀ q : Upd → Bool,
              (if 15 ≤ u.node then s.pend.set k (parentUpd (s.cnt u.node) u)
                  else s.pend.eraseIdx k).countP q + (q u).toNat =
              s.pend.countP q + (if 15 ≤ u.node then (q (parentUpd (s.cnt u.node) u)).toNat else 0) := by
            intro q
            split
            · exact countP_set' q _ _ _ _ hk
            · rw [countP_eraseIdx' q _ _ _ hk, Nat.add_zero]
          have ha := hpa (fun u => decide (u.node = i ∧ u.next = l))
          have ht := hpa (fun u => decide (u.node = i ∧ u.prev = l))
          simp only [toNat_decide, parentUpd_prev hl, parentUpd_next hl] at ha ht
          have hpn : (parentUpd (s.cnt u.node) u).node = u.node / 15 - 1 := rfl
          simp only [hpn] at ha ht
          simp only [adding, taking] at hold ⊢
          dsimp only at hb
          simp only [if_true] at hb
          by_cases hiu : i = u.node
          · subst hiu
            have : ¬ (15 ≤ u.node ∧ u.node / 15 - 1 = u.node) := by omega
            grind
          · grind
        · intro i l hl
          dsimp only
          split
          · rename_i h
            have h0 := inv.fits i l hl
            subst h
            unfold ready at hr
            rcases moved_eq_or hl hd hr with h | h | h
            · omega
            · have := hr.2 (by rw [← h.2.1]; unfold INVALID; omega)
              rw [← h.2.1] at this; omega
            · omega
          · exact inv.fits i l hl
        · intro w hw
          dsimp only at hw
          split at hw
          · rcases List.mem_or_eq_of_mem_set hw with hw | hw
            · exact inv.node w hw
            · rw [hw]
              show u.node / 15 - 1 < g.total
              omega
          · exact inv.node w (List.mem_of_mem_eraseIdx hw)
        · intro w hw
          dsimp only at hw
          split at hw
          · rcases List.mem_or_eq_of_mem_set hw with hw | hw
            · exact inv.diff w hw
            · rw [hw]
              unfold parentUpd
              dsimp only
              grind
          · exact inv.diff w (List.mem_of_mem_eraseIdx hw)
        · intro w hw
          dsimp only at hw
          split at hw
          · rcases List.mem_or_eq_of_mem_set hw with hw | hw
            · exact inv.lv w hw
            · rw [hw]
              unfold parentUpd
              dsimp only
              grind
          · exact inv.lv w (List.mem_of_mem_eraseIdx hw)
        · exact inv.pg
      · exact inv

theorem run_inv {g : Geom} {D : Nat} (sh : Shape g D) (l : List Step) : Inv g (run g l) := by
  unfold run
  suffices ∀ s, Inv g s → Inv g (l.foldl (step g) s) from this _ (init_inv sh)
  induction l with
  | nil => intro s h; exact h
  | cons o l ih => intro s h; exact ih _ (step_inv sh h o)

end Verif.Ucm
