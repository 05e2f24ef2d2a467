/-!
# What a key bitmap should do

Independent of the model: programs that use several bitmaps, the sets of keys they
should hold, and the answers they should give.
-/

namespace Verif.KeyBitmap

/-- One call of the interface; `a` and `b` name bitmaps. -/
inductive Op (K : Type) where
  | insert (a : Nat) (k : K)
  | emit (a : Nat) (k : K)
  | union (a b : Nat)
  | intersect (a b : Nat)
  | test (a : Nat) (k : K)
  | isEmpty (a : Nat)
  | range (a : Nat) (low high : K)
  | next (a : Nat) (prev : K)

/-- An answer.  `crash` stands for a null pointer or an access outside an array. -/
inductive Res (K : Type) where
  | done
  | bool (b : Bool)
  | key (k : Option K)
  | crash

/-- The sets of keys after one call. -/
def change {K : Type} (S : Nat → K → Prop) : Op K → Nat → K → Prop
  | .insert a k => fun c x => S c x ∨ (c = a ∧ x = k)
  | .emit a k => fun c x => S c x ∨ (c = a ∧ x = k)
  | .union a b => fun c x => S c x ∨ (c = a ∧ S b x)
  | .intersect a b => fun c x => S c x ∧ (c = a → S b x)
  | _ => S

/-- The sets of keys after a program that begins with empty bitmaps. -/
def sets {K : Type} (ops : List (Op K)) : Nat → K → Prop :=
  ops.foldl change (fun _ _ => False)

/-- The answer is the right one for the sets `S`; `val` gives the order of the keys
and `all` says what a key is. -/
def Right {K : Type} (val : K → Nat) (all : K → Prop) (S : Nat → K → Prop) : Op K → Res K → Prop
  | .insert _ _, .done => True
  | .union _ _, .done => True
  | .intersect _ _, .done => True
  | .emit a k, .bool r => r = true ↔ ¬ S a k
  | .test a k, .bool r => r = true ↔ S a k
  | .isEmpty a, .bool r => r = true ↔ ∀ k, all k → ¬ S a k
  | .range a low high, .bool r => r = true ↔ ∃ k, S a k ∧ val low ≤ val k ∧ val k < val high
  | .next a prev, .key none => ∀ k, S a k → val k < val prev
  | .next a prev, .key (some r) =>
    S a r ∧ val prev ≤ val r ∧ ∀ k, S a k → val prev ≤ val k → val r ≤ val k
  | _, _ => False

/-- All keys of a call are keys. -/
def Op.Valid {K : Type} (all : K → Prop) : Op K → Prop
  | .insert _ k | .emit _ k | .test _ k | .next _ k => all k
  | .range _ low high => all low ∧ all high
  | _ => True

/-- Calls about the contents of the sets. -/
def Op.isSet {K : Type} : Op K → Bool
  | .range _ _ _ | .next _ _ => false
  | _ => true

end Verif.KeyBitmap
