import Verif.SeqScan.Merge

/-!
# The rows of one leaf: lemmas
-/

namespace Verif.SeqScan.Merge

/-- The merge, for a forward scan. -/
def mrg (hik : Option Nat) : List Live → List Hist → List (Nat × Nat)
  | [], [] => []
  | x :: ls, [] => row x.key x.ver ++ mrg hik ls []
  | [], h :: hs =>
    match hik with
    | none => row h.key h.ver ++ mrg hik [] hs
    | some b => if b ≤ h.key then [] else row h.key h.ver ++ mrg hik [] hs
  | x :: ls, h :: hs =>
    if x.key < h.key then row x.key x.ver ++ mrg hik ls (h :: hs)
    else if h.key = x.key then
      if x.own then row x.key x.ver ++ mrg hik ls hs
      else row h.key h.ver ++ mrg hik ls hs
    else row h.key h.ver ++ mrg hik (x :: ls) hs
termination_by ls hs => ls.length + hs.length

/-- The locator and what is left of the page. -/
def At (l : List Live) (loc : Option Nat) (ls : List Live) : Prop :=
  match loc with
  | none => ls = []
  | some i => i < l.length ∧ ls = l.drop i

theorem at_cur {l ls : List Live} {loc : Option Nat} (h : At l loc ls) :
    (ls = [] ∧ cur l loc = none) ∨ ∃ i x ls', loc = some i ∧ ls = x :: ls' ∧ cur l loc = some (i, x) ∧ At l (next l i) ls' := by
  cases loc with
  | none => exact Or.inl ⟨h, rfl⟩
  | some i =>
    obtain ⟨hlt, rfl⟩ := h
    refine Or.inr ⟨i, l[i], l.drop (i + 1), rfl, ?_, ?_, ?_⟩
    · exact List.drop_eq_getElem_cons hlt
    · simp [cur, hlt]
    · unfold next
      split
      · rename_i h1; exact ⟨h1, rfl⟩
      · rename_i h1
        show l.drop (i + 1) = []
        rw [List.drop_eq_nil_iff]; omega

theorem leaf_mrg (hik : Option Nat) (l : List Live) : ∀ (n : Nat) (loc : Option Nat) (hs : List Hist) (ls : List Live),
    At l loc ls → ls.length + hs.length < n → leaf true hik l n loc hs = mrg hik ls hs := by
  intro n
  induction n with
  | zero => intro _ _ _ _ h; omega
  | succ n ih =>
    intro loc hs ls ha hn
    rcases at_cur ha with ⟨rfl, hc⟩ | ⟨i, x, ls', rfl, rfl, hc, ha'⟩
    · cases hs with
      | nil => rw [leaf, hc, mrg]
      | cons h hs =>
        rw [leaf.eq_def, mrg.eq_def]
        dsimp only
        rw [hc]
        simp only [List.length_nil, List.length_cons] at hn
        have := ih loc hs [] ha (by simp; omega)
        dsimp only
        cases hik with
        | none => dsimp only; rw [this]
        | some b => dsimp only; rw [this]
    · simp only [List.length_cons] at hn
      cases hs with
      | nil =>
        rw [leaf, hc, mrg]
        dsimp only
        rw [show advance true l i = next l i from rfl, ih _ [] ls' ha' (by simp at hn ⊢; omega)]
      | cons h hs =>
        simp only [List.length_cons] at hn
        rw [leaf.eq_def, mrg]
        dsimp only
        rw [hc]
        dsimp only
        rw [show advance true l i = next l i from rfl, ih _ (h :: hs) ls' ha' (by simp; omega),
          ih _ hs ls' ha' (by omega), ih (some i) hs (x :: ls') ha (by simp; omega)]

theorem start_at (l : List Live) : At l (start true l) l := by
  unfold start
  cases l with
  | nil => rfl
  | cons x l => exact ⟨by simp, rfl⟩

theorem mem_row {k : Nat} {v : Option Nat} {p : Nat × Nat} : p ∈ row k v ↔ p.1 = k ∧ v = some p.2 := by
  cases v with
  | none => simp [row]
  | some x =>
    simp only [row, List.mem_singleton, Option.some.injEq]
    constructor
    · rintro rfl; exact ⟨rfl, rfl⟩
    · rintro ⟨h1, h2⟩; exact Prod.ext h1 h2.symm

/-- Is a key below the hikey? -/
def under (hik : Option Nat) (k : Nat) : Prop := ∀ b, hik = some b → k < b

theorem find_none {l : List Hist} {k : Nat} (h : ∀ x ∈ l, k < x.key) : l.find? (fun x => x.key == k) = none := by
  rw [List.find?_eq_none]
  intro x hx
  have := h x hx
  simp; omega

theorem find_none' {l : List Live} {k : Nat} (h : ∀ x ∈ l, k < x.key) : l.find? (fun x => x.key == k) = none := by
  rw [List.find?_eq_none]
  intro x hx
  have := h x hx
  simp; omega

theorem pairwise_row {k : Nat} {v : Option Nat} {r : List (Nat × Nat)} (hr : r.Pairwise (fun a b => a.1 < b.1))
    (h : ∀ p ∈ r, k < p.1) : (row k v ++ r).Pairwise (fun a b => a.1 < b.1) := by
  cases v with
  | none => exact hr
  | some x => exact List.pairwise_cons.mpr ⟨fun p hp => h p hp, hr⟩

/-- The merge is in order, and has what is to be returned. -/
theorem mrg_spec (hik : Option Nat) (ls : List Live) (hs : List Hist) :
    ls.Pairwise (fun a b => a.key < b.key) → hs.Pairwise (fun a b => a.key < b.key) → (∀ x ∈ ls, under hik x.key) →
    (mrg hik ls hs).Pairwise (fun a b => a.1 < b.1) ∧
    ∀ p, p ∈ mrg hik ls hs ↔ under hik p.1 ∧ expect ls hs p.1 = some p.2 := by
  have keys : ∀ {ls : List Live} {hs : List Hist} {k v : Nat}, expect ls hs k = some v →
      (∃ x ∈ ls, x.key = k) ∨ ∃ h ∈ hs, h.key = k := by
    intro ls hs k v h
    unfold expect at h
    cases h1 : ls.find? (fun x => x.key == k) with
    | some x =>
      exact Or.inl ⟨x, List.mem_of_find?_eq_some h1, by simpa using List.find?_some h1⟩
    | none =>
      cases h2 : hs.find? (fun x => x.key == k) with
      | some x => exact Or.inr ⟨x, List.mem_of_find?_eq_some h2, by simpa using List.find?_some h2⟩
      | none => rw [h1, h2] at h; cases h
  induction hn : ls.length + hs.length using Nat.strongRecOn generalizing ls hs with
  | _ n ih =>
  intro hl hh hu
  -- a head item with a key below all others
  have step : ∀ (ls' : List Live) (hs' : List Hist) (k : Nat) (v : Option Nat),
      ls'.length + hs'.length < n → ls'.Pairwise (fun a b => a.key < b.key) → hs'.Pairwise (fun a b => a.key < b.key) →
      (∀ x ∈ ls', under hik x.key) → (∀ x ∈ ls', k < x.key) → (∀ x ∈ hs', k < x.key) → under hik k →
      expect ls hs k = v → (∀ j, j ≠ k → expect ls hs j = expect ls' hs' j) →
      (row k v ++ mrg hik ls' hs').Pairwise (fun a b => a.1 < b.1) ∧
      ∀ p, p ∈ row k v ++ mrg hik ls' hs' ↔ under hik p.1 ∧ expect ls hs p.1 = some p.2 := by
    intro ls' hs' k v hlt h1 h2 h3 h4 h5 h6 h7 h8
    obtain ⟨i1, i2⟩ := ih _ hlt ls' hs' rfl h1 h2 h3
    have hk : ∀ p ∈ mrg hik ls' hs', k < p.1 := by
      intro p hp
      rcases keys ((i2 p).mp hp).2 with ⟨x, hx, he⟩ | ⟨x, hx, he⟩
      · rw [← he]; exact h4 x hx
      · rw [← he]; exact h5 x hx
    refine ⟨pairwise_row i1 hk, fun p => ?_⟩
    rw [List.mem_append, mem_row]
    constructor
    · rintro (⟨e1, e2⟩ | hp)
      · rw [e1]; exact ⟨h6, h7.trans e2⟩
      · have hne : p.1 ≠ k := by have := hk p hp; omega
        rw [h8 p.1 hne]; exact (i2 p).mp hp
    · rintro ⟨e1, e2⟩
      by_cases he : p.1 = k
      · rw [he, h7] at e2; exact Or.inl ⟨he, e2⟩
      · rw [h8 p.1 he] at e2; exact Or.inr ((i2 p).mpr ⟨e1, e2⟩)
  cases ls with
  | nil =>
    cases hs with
    | nil => rw [mrg]; simp [expect]
    | cons h hs =>
      rw [List.pairwise_cons] at hh
      have hgo : under hik h.key → _ := fun hb => step [] hs h.key h.ver (by simp at hn ⊢; omega) List.Pairwise.nil hh.2
        (by simp) (by simp) hh.1 hb (by simp [expect]) (by
          intro j hj
          have : (h.key == j) = false := by simp; omega
          simp [expect, List.find?_cons, this])
      rw [mrg.eq_def]
      dsimp only
      cases hik with
      | none => exact hgo (fun b hb => by cases hb)
      | some b =>
        dsimp only
        split
        · rename_i hle
          refine ⟨List.Pairwise.nil, fun p => ⟨fun hp => (by cases hp), ?_⟩⟩
          rintro ⟨e1, e2⟩
          have e1 := e1 b rfl
          rcases keys e2 with ⟨x, hx, _⟩ | ⟨x, hx, he⟩
          · cases hx
          · rcases List.mem_cons.mp hx with rfl | hx
            · omega
            · have := hh.1 x hx; omega
        · rename_i hle
          exact hgo (fun c hc => by injection hc with hc; omega)
  | cons x ls =>
    rw [List.pairwise_cons] at hl
    cases hs with
    | nil =>
      rw [mrg]
      exact step ls [] x.key x.ver (by simp at hn ⊢; omega) hl.2 List.Pairwise.nil
        (fun y hy => hu y (List.mem_cons_of_mem _ hy)) hl.1 (by simp) (hu x (by simp)) (by simp [expect]) (by
          intro j hj
          have : (x.key == j) = false := by simp; omega
          simp [expect, List.find?_cons, this])
    | cons h hs =>
      rw [List.pairwise_cons] at hh
      simp only [List.length_cons] at hn
      rw [mrg]
      split
      · rename_i hlt
        refine step ls (h :: hs) x.key x.ver (by simp; omega) hl.2 (List.pairwise_cons.mpr hh)
          (fun y hy => hu y (List.mem_cons_of_mem _ hy)) hl.1 ?_ (hu x (by simp)) ?_ ?_
        · intro y hy
          rcases List.mem_cons.mp hy with rfl | hy
          · exact hlt
          · have := hh.1 y hy; omega
        · have hf : (h :: hs).find? (fun y => y.key == x.key) = none := find_none (by
            intro y hy
            rcases List.mem_cons.mp hy with rfl | hy
            · exact hlt
            · have := hh.1 y hy; omega)
          unfold expect
          rw [hf]
          simp
        · intro j hj
          have : (x.key == j) = false := by simp; omega
          simp [expect, List.find?_cons (a := x), this]
      · rename_i hge
        split
        · rename_i heq
          have hne : ∀ j, j ≠ x.key → expect (x :: ls) (h :: hs) j = expect ls hs j := by
            intro j hj
            have h1 : (x.key == j) = false := by simp; omega
            have h2 : (h.key == j) = false := by simp; omega
            simp [expect, List.find?_cons, h1, h2]
          have hex : expect (x :: ls) (h :: hs) x.key = if x.own then x.ver else h.ver := by
            simp [expect, List.find?_cons, heq]
          have hgo := fun v hv => step ls hs x.key v (by omega) hl.2 hh.2
              (fun y hy => hu y (List.mem_cons_of_mem _ hy)) hl.1 (fun y hy => heq ▸ hh.1 y hy) (hu x (by simp)) hv hne
          split
          · rename_i ho
            exact hgo x.ver (by rw [hex, if_pos ho])
          · rename_i ho
            rw [heq]
            exact hgo h.ver (by rw [hex, if_neg ho])
        · rename_i hneq
          have hlt : h.key < x.key := by omega
          refine step (x :: ls) hs h.key h.ver (by simp; omega) (List.pairwise_cons.mpr hl) hh.2 hu ?_ hh.1 ?_ ?_ ?_
          · intro y hy
            rcases List.mem_cons.mp hy with rfl | hy
            · exact hlt
            · have := hl.1 y hy; omega
          · intro b hb
            have := hu x (by simp) b hb
            omega
          · have hf : (x :: ls).find? (fun y => y.key == h.key) = none := find_none' (by
              intro y hy
              rcases List.mem_cons.mp hy with rfl | hy
              · exact hlt
              · have := hl.1 y hy; omega)
            unfold expect
            rw [hf]
            simp
          · intro j hj
            have : (h.key == j) = false := by simp; omega
            simp [expect, List.find?_cons (a := h), this]

/-- Without historical images a backward walk returns the visible rows of the page from the last to the first. -/
theorem leaf_back (hik : Option Nat) (l : List Live) : ∀ (i n : Nat), i < l.length → i + 1 < n →
    leaf false hik l n (some i) [] = ((l.take (i + 1)).reverse).flatMap (fun x => row x.key x.ver) := by
  intro i
  induction i with
  | zero =>
    intro n hi hn
    obtain ⟨n, rfl⟩ : ∃ m, n = m + 1 := ⟨n - 1, by omega⟩
    obtain ⟨n, rfl⟩ : ∃ m, n = m + 1 := ⟨n - 1, by omega⟩
    rw [leaf]
    simp only [cur, List.getElem?_eq_getElem hi, advance]
    rw [leaf]
    simp only [cur, Bool.false_eq_true, if_false, if_true]
    rw [List.take_succ_eq_append_getElem hi]
    simp
  | succ i ih =>
    intro n hi hn
    obtain ⟨n, rfl⟩ : ∃ m, n = m + 1 := ⟨n - 1, by omega⟩
    rw [leaf]
    simp only [cur, List.getElem?_eq_getElem hi, advance]
    rw [if_neg (by simp), if_neg (by omega), Nat.add_sub_cancel, ih n (by omega) (by omega),
      List.take_succ_eq_append_getElem hi, List.reverse_append]
    simp only [List.reverse_cons, List.reverse_nil, List.nil_append, List.cons_append, List.flatMap_cons]

end Verif.SeqScan.Merge
