import Verif.PageState.Lock

/-!
# Linked lists in `lockerStates`

`Chain next h l e`: starting from `h` and following `next`, the nodes `l` are met
in order and the next pointer after them is `e`.
-/

namespace Verif.PageState

def Chain (next : Nat → Option Nat) : Option Nat → List Nat → Option Nat → Prop
  | h, [], e => h = e
  | h, x :: l, e => h = some x ∧ Chain next (next x) l e

theorem Chain.congr {n m : Nat → Option Nat} {l : List Nat} : ∀ {h e : Option Nat},
    (∀ x ∈ l, m x = n x) → Chain n h l e → Chain m h l e := by
  induction l with
  | nil => intro h e _ hc; exact hc
  | cons x l ih =>
    intro h e hx hc
    refine ⟨hc.1, ?_⟩
    rw [hx x (List.mem_cons_self ..)]
    exact ih (fun y hy => hx y (List.mem_cons_of_mem _ hy)) hc.2

theorem Chain.upd {n : Nat → Option Nat} {l : List Nat} {h e : Option Nat} {a : Nat}
    {v : Option Nat} (ha : a ∉ l) (hc : Chain n h l e) : Chain (PageState.upd n a v) h l e :=
  hc.congr (fun x hx => upd_ne _ _ (fun hxa => ha (hxa ▸ hx)))

theorem Chain.append {n : Nat → Option Nat} {l m : List Nat} : ∀ {h e : Option Nat},
    Chain n h (l ++ m) e ↔ ∃ c, Chain n h l c ∧ Chain n c m e := by
  induction l with
  | nil => intro h e; simp [Chain]
  | cons x l ih =>
    intro h e
    simp only [List.cons_append, Chain, ih]
    constructor
    · rintro ⟨h1, c, h2, h3⟩; exact ⟨c, ⟨h1, h2⟩, h3⟩
    · rintro ⟨c, ⟨h1, h2⟩, h3⟩; exact ⟨h1, c, h2, h3⟩

/-- The end of the list is not one of its nodes: then a list that starts and ends
at the same place is empty. -/
theorem Chain.self_nil {n : Nat → Option Nat} {l : List Nat} {h : Option Nat}
    (hn : ∀ x, h = some x → x ∉ l) (hc : Chain n h l h) : l = [] := by
  cases l with
  | nil => rfl
  | cons x l => exact absurd (List.mem_cons_self ..) (hn x hc.1)

/-- Redirect the last node of a non-empty list. -/
theorem Chain.setLast {n : Nat → Option Nat} {l : List Nat} : ∀ {h e v : Option Nat} {q : Nat},
    l.Nodup → l.getLast? = some q → Chain n h l e → Chain (PageState.upd n q v) h l v := by
  induction l with
  | nil => intro h e v q _ hq; cases hq
  | cons x l ih =>
    intro h e v q hd hq hc
    refine ⟨hc.1, ?_⟩
    cases l with
    | nil =>
      have : x = q := by simpa using hq
      subst this
      exact upd_same _ _ _
    | cons y l =>
      have hxq : x ≠ q := by
        intro hxq
        subst hxq
        have h1 : x ∈ (y :: l) := by
          have : (y :: l).getLast? = some x := by
            rw [List.getLast?_cons_cons] at hq; exact hq
          exact List.mem_of_getLast? this
        exact (List.nodup_cons.1 hd).1 h1
      rw [upd_ne _ _ hxq]
      exact ih (List.nodup_cons.1 hd).2 (by rw [List.getLast?_cons_cons] at hq; exact hq) hc.2

theorem Chain.follow {n : Nat → Option Nat} {l : List Nat} : ∀ {h : Option Nat},
    Chain n h l none → ∀ f, follow n f h = l.take f := by
  induction l with
  | nil =>
    intro h hc f
    cases hc
    cases f <;> simp [PageState.follow]
  | cons x l ih =>
    intro h hc f
    rw [hc.1]
    cases f with
    | zero => simp [PageState.follow]
    | succ f => simp [PageState.follow, ih hc.2]

end Verif.PageState
