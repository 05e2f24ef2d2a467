import Verif.LogicalXid.Model

/-!
# What C18 says

Stated on what a process reports as its ids, not on the map.
-/

namespace Verif.LogicalXid

/-- The ids of the process's unfinished transactions and subtransactions: the current
one, those of the enclosing ones, those of transactions suspended by autonomous ones. -/
def alive (pr : Proc) : List Nat :=
  (pr.ctx :: (pr.stack.map (·.1) ++ pr.saved.map (·.2))).filter (· ≠ 0)

/-- The process has handed the id of an ending subtransaction back but still uses it. -/
def handedBack (pr : Proc) : Bool :=
  match pr.todo with
  | .recordSub _ :: _ => true
  | .restore _ :: _ => true
  | _ => false

/-- `alive` without an id already handed back. -/
def owned (pr : Proc) : List Nat :=
  ((if handedBack pr then [] else [pr.ctx]) ++
    (pr.stack.map (·.1) ++ pr.saved.map (·.2))).filter (· ≠ 0)

/-- C18, first half: no id is in use twice. -/
def UniqueIds (s : St) : Prop := (s.procs.flatMap alive).Nodup

/-- `RecentXmin` is a 32-bit number. -/
def Legal (acts : List (Nat × Act)) : Prop :=
  ∀ p x, (p, Act.step x) ∈ acts → x < 4294967296

/-- Reachable states with `items` map words and `n` processes. -/
def Reach (items n : Nat) (s : St) : Prop :=
  ∃ acts, Legal acts ∧ s = run (init items n) acts

/-- Number of map words allowed by the configuration: 2048 per block, 1 to 1024 blocks
(src/orioledb.c:805-816, src/transam/oxid.c:464; 8192-byte blocks). -/
def Items (items : Nat) : Prop := ∃ g, 1 ≤ g ∧ g ≤ 1024 ∧ items = g * 2048

end Verif.LogicalXid
