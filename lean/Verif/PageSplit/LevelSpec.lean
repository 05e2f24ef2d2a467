import Verif.PageSplit.LevelModel

/-!
# The leaf level: what its operations should do

What an operation does to the row with its key, and what may happen to the others.
-/

namespace Verif.PageSplit

/-- The rows of the level. -/
def Lev.rows (s : Lev) : List Row := ((s.pages.map Page.items).flatten).map (·.row)

/-- The row with a key. -/
def rowOf (rows : List Row) (k : Nat) : Option Row := rows.find? (fun r => r.tup.key == k)

/-- The chain without its first header that is not a lock; the locks before it are kept. -/
def popChange : List Rec → Option (Rec × List Rec)
  | [] => none
  | c :: l => if c.act = .lock then (popChange l).map (fun r => (r.1, c :: r.2)) else some (c, l)

/-- The transaction of the last change of the row is over, or is `x`. -/
def changeable (com : Env) (x : Nat) (r : Row) : Prop :=
  ∀ c l, popChange r.chain = some (c, l) → c.xid = x ∨ com.fin c.xid = true

instance (com : Env) (x : Nat) (r : Row) : Decidable (changeable com x r) :=
  match h : popChange r.chain with
  | none => isTrue (fun _ _ e => by rw [h] at e; cases e)
  | some (c, l) =>
    if hc : c.xid = x ∨ com.fin c.xid = true then
      isTrue (fun _ _ e => by rw [h] at e; cases e; exact hc)
    else isFalse (fun hh => hc (hh c l h))

/-- `x` makes a row of the tuple. -/
def putRow (com : Env) (x : Nat) (t : Tup) : Option Row → Option (Option Row)
  | none => some (some ⟨t, false, [⟨x, .ins⟩]⟩)
  | some r =>
    if changeable com x r then some (some ⟨t, false, ⟨x, .upd r.tup r.deleted⟩ :: r.chain⟩) else none

/-- `x` deletes the row: it is there, its last change is over or of `x`, nobody else holds a lock. -/
def delRow (com : Env) (x : Nat) : Option Row → Option (Option Row)
  | none => none
  | some r =>
    if r.deleted = false ∧ changeable com x r ∧
        (∀ c ∈ r.chain, c.act = .lock → c.xid = x ∨ com.fin c.xid = true)
    then some (some ⟨r.tup, true, ⟨x, .del⟩ :: r.chain⟩) else none

/-- The last change of the row is an update. -/
def updated (r : Row) : Bool :=
  match popChange r.chain with
  | some (⟨_, .upd _ _⟩, _) => true
  | _ => false

/-- `x` locks the row: it is there and not newly inserted by another. -/
def lockRow (com : Env) (x : Nat) : Option Row → Option (Option Row)
  | none => none
  | some r =>
    if r.deleted = false ∧ (changeable com x r ∨ updated r = true)
    then some (some ⟨r.tup, false, ⟨x, .lock⟩ :: r.chain⟩) else none

/-- `x` gives up a lock. -/
def unlockRow (x : Nat) : Option Row → Option (Option Row)
  | none => none
  | some r => some (some ⟨r.tup, r.deleted, r.chain.erase ⟨x, .lock⟩⟩)

/-- The last change of the row, if it is by `x`, is undone. -/
def undoRow (bridge : Bool) (com : Env) (x : Nat) : Option Row → Option (Option Row)
  | none => none
  | some r =>
    match popChange r.chain with
    | none => none
    | some (c, l) =>
      if c.xid = x ∧ com.fin x = false then
        match c.act with
        | .ins => some (if bridge then some ⟨r.tup, true, r.chain⟩ else none)
        | .upd t d => some (some ⟨t, d, l⟩)
        | .del => some (some ⟨r.tup, false, l⟩)
        | .lock => none
      else none

/-- Rows only vanish if they are deleted by a finished transaction, and none appear but `new`. -/
structure Others (com : Env) (ks : Nat → Prop) (new : List Row) (a b : List Row) : Prop where
  stay : ∀ r ∈ a, ¬ ks r.tup.key → r ∈ b ∨ (r.deleted = true ∧ com.fin r.xid = true)
  come : ∀ r ∈ b, ¬ ks r.tup.key → r ∈ a ∨ r ∈ new

/-- The row with key `k` becomes what is said, if anything; the others are left alone. -/
def Single (com : Env) (k : Nat) (a b : List Row) : Option (Option Row) → Prop
  | none => b = a
  | some r => rowOf b k = r ∧ Others com (· = k) [] a b

/-- What an operation should do to the rows. -/
def StepSpec (bridge : Bool) (s : Lev) (op : Op) (s' : Lev) : Prop :=
  match op with
  | .put _ x t _ _ _ => Single s.com t.key s.rows s'.rows
      (if s.com.fin x then none else putRow s.com x t (rowOf s.rows t.key))
  | .putAll o half x t ws l2 csn =>
      (s'.rows = s.rows ∧ (s.com.fin x = true ∨ rowOf s.rows t.key ≠ none ∨
        ∃ w ∈ ws, w.2.2.key < t.key)) ∨
      ∃ ys rej : List (Nat × Nat × Tup), (ys ++ rej).Perm ws ∧
        toldInserted s o half x t ws l2 csn = ys.map (·.1) ∧
        ⟨t, false, [⟨x, .ins⟩]⟩ ∈ s'.rows ∧ (∀ y ∈ ys, ⟨y.2.2, false, [⟨y.2.1, .ins⟩]⟩ ∈ s'.rows) ∧
        Others s.com (fun _ => False)
          (⟨t, false, [⟨x, .ins⟩]⟩ :: ys.map (fun y => ⟨y.2.2, false, [⟨y.2.1, .ins⟩]⟩)) s.rows s'.rows
  | .del x k => Single s.com k s.rows s'.rows
      (if s.com.fin x then none else delRow s.com x (rowOf s.rows k))
  | .lock x k => Single s.com k s.rows s'.rows
      (if s.com.fin x then none else lockRow s.com x (rowOf s.rows k))
  | .unlock x k => Single s.com k s.rows s'.rows (unlockRow x (rowOf s.rows k))
  | .undo x k => Single s.com k s.rows s'.rows (undoRow bridge s.com x (rowOf s.rows k))
  | .finish _ => s'.rows = s.rows
  | .merge _ _ _ _ _ _ => Others s.com (fun _ => False) [] s.rows s'.rows

end Verif.PageSplit
