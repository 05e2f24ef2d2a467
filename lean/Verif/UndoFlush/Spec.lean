import Verif.UndoFlush.Model

/-!
# The flush of the undo log: what is claimed

In terms of what was written to the log, what the disk has and what is read.
-/

namespace Verif.UndoFlush

/-- C55: when a checkpoint has flushed the undo log from `lo` to `hi`, the disk has, for every
location of a complete record there, a value the location had at the beginning of the flush or
later: if it was not changed meanwhile, its value. -/
def C55 (s : St) : Prop :=
  ∀ lo hi, s.ck = .done lo hi →
    ∀ x, lo ≤ x → x < hi → s.done x = true → s.disk x ∈ s.seen x

/-- C58: a read of a retained location of a complete record finds what was last written to it. -/
def C58 (c : Cfg) (s : St) : Prop :=
  ∀ x, s.low ≤ x → s.done x = true → found c s x = s.val x

/-- The steps for which the claims hold: a record does not come to lie in the page of the ring
in which the last eviction stopped, one turn of the ring later; and a change in place does not go
to the evicted part of that page. -/
def calmStep (c : Cfg) (s : St) : Op → Prop
  | .alloc n => s.used + n ≤ s.written / c.page * c.page + c.size
  | .write x _ => x < s.written → x < s.written / c.page * c.page
  | _ => True

/-- All steps of the run are of this kind. -/
def calm (c : Cfg) (s : St) : List Op → Prop
  | [] => True
  | op :: ops => calmStep c s op ∧ calm c (step c s op) ops

instance (c : Cfg) (s : St) (op : Op) : Decidable (calmStep c s op) := by
  cases op <;> unfold calmStep <;> infer_instance

instance calmDec (c : Cfg) : ∀ (ops : List Op) (s : St), Decidable (calm c s ops)
  | [], _ => isTrue trivial
  | op :: ops, s =>
    have := calmDec c ops (step c s op)
    inferInstanceAs (Decidable (calmStep c s op ∧ calm c (step c s op) ops))

end Verif.UndoFlush
