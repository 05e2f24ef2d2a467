import Verif.SysCache.Model

/-!
# System caches: what is claimed

Stated on the operations and on the contents of the tree, without the functions of the model.
-/

namespace Verif.SysCache

/-- The version of a key in force at an LSN: the last one added at or before it. -/
def inForce (tree : List Entry) (k l : Nat) : Option Entry :=
  (tree.filter (fun e => e.key = k ∧ e.lsn ≤ l)).getLast?

/-- The WAL written by a sequence of operations. -/
def ticks : List Op → Nat
  | [] => 0
  | .tick n :: os => n + ticks os
  | _ :: os => ticks os

/-- No entry is added with an LSN read before: the LSN given is not before any position reached. -/
def FreshLsn (total : Nat) (ops : List Op) : Prop :=
  ∀ b k v l, Op.add b k v l ∈ ops → total ≤ l

/-- The objects of the database as far as the cache is concerned: `need` are those whose entry was
asked for and which were not dropped since, `drops` the drops of open transactions, `gone` the
objects dropped for good. -/
structure Objects where
  need : List Nat
  drops : List (Nat × Nat)
  gone : List Nat
deriving DecidableEq, Repr

/-- The keys a backend is dropping. -/
def Objects.dropsOf (g : Objects) (b : Nat) : List Nat :=
  (g.drops.filter (fun p => p.1 = b)).map (·.2)

/-- How the operations change the objects.  An entry asked for again after a drop in an open
transaction is needed whatever becomes of that drop. -/
def Objects.step (g : Objects) : Op → Objects
  | .add _ k _ _ => { g with need := k :: g.need, drops := g.drops.filter (fun p => p.2 ≠ k) }
  | .delete b k => { g with drops := (b, k) :: g.drops }
  | .commit b =>
    { need := g.need.filter (fun k => k ∉ g.dropsOf b),
      drops := g.drops.filter (fun p => p.1 ≠ b),
      gone := g.dropsOf b ++ g.gone }
  | .abort b => { g with drops := g.drops.filter (fun p => p.1 ≠ b) }
  | _ => g

/-- The objects after a sequence of operations. -/
def objects : Objects → List Op → Objects
  | g, [] => g
  | g, o :: os => objects (g.step o) os

/-- No objects. -/
def noObjects : Objects := ⟨[], [], []⟩

/-- An object is neither dropped nor being dropped. -/
def Objects.Steady (g : Objects) (k : Nat) : Prop := k ∉ g.gone ∧ ∀ b, (b, k) ∉ g.drops

/-- What the rest of the server would have to guarantee for the cache to lose nothing: an object is
added, altered and dropped only while nobody drops it and never after it was dropped, others do not
look it up while it is being dropped, and no checkpoint comes while a drop is open. -/
def Objects.Allows (g : Objects) : Op → Prop
  | .add _ k _ _ => g.Steady k
  | .update _ k _ => g.Steady k
  | .delete _ k => g.Steady k
  | .search b k _ => ∀ b', (b', k) ∈ g.drops → b' = b
  | .checkpoint _ => g.drops = []
  | _ => True

/-- Every operation is allowed when it comes. -/
def Disciplined : Objects → List Op → Prop
  | _, [] => True
  | g, o :: os => g.Allows o ∧ Disciplined (g.step o) os

/-- The rows a copy of a database must have: those of the other one not marked as deleted. -/
def Live (src : Nat) (r : Row) : Prop := r.datoid = src ∧ r.deleted = false

end Verif.SysCache
