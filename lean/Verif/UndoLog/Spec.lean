import Verif.UndoLog.Model

/-!
# The undo log: what is claimed

Statements about what can be observed: the records allocated, the newest-first list of
observations, the snapshots and undo records of the sessions, and how far the log is truncated.
-/

namespace Verif.UndoLog

/-- C23.  `recs` are the records allocated, `obs` the observations, newest first.
* `inside`: a record occupies one contiguous part of the ring.
* `apart`: no two records share a byte.
* `saved`: when byte `x` is put into the ring, any older byte `y` that was in the same place is
  not retained any more or has been written out.
* `late`: a byte is not written out before it is put there. -/
structure C23 (size : Nat) (recs : List Rec) (obs : List Ob) : Prop where
  inside : ∀ r, r ∈ recs → 0 < r.n ∧ ∀ k, k < r.n → (r.loc + k) % size = r.loc % size + k
  apart : recs.Pairwise fun a b => ∀ x, ¬ (a.loc ≤ x ∧ x < a.loc + a.n ∧ b.loc ≤ x ∧ x < b.loc + b.n)
  saved : ∀ x r pre, (.put x r :: pre) <:+ obs → ∀ y, y < x → y % size = x % size →
    y < r ∨ .copied y ∈ pre
  late : ∀ x r pre, (.put x r :: pre) <:+ obs → .copied x ∉ pre

/-- C25.  What a session's snapshot has registered is not truncated: neither discarded from the
ring without being written out, nor removed from disk. -/
def C25 (procs : Nat) (s : St) : Prop :=
  ∀ p, p < procs → ∀ r, r ∈ s.snaps p → s.minRet ≤ r ∧ s.cleaned ≤ r

/-- C52.  No process has found its reservation too small. -/
def C52 (s : St) : Prop := ∀ p, s.pc p ≠ .panic

/-- C53.  Every byte read has one of the values it had during the read, and no reader has found
the undo gone. -/
def C53 (s : St) : Prop :=
  (∀ p x v vs, .read p x v vs ∈ s.obs → v ∈ vs) ∧ ∀ p, s.pc p ≠ .lost

/-- C54.  The position a snapshot registers is not above any undo of a transaction in progress
at that time, and the undo of a transaction in progress is not truncated. -/
def C54 (procs : Nat) (s : St) : Prop :=
  (∀ p r need, .took p r need ∈ s.obs → ∀ x, x ∈ need → r ≤ x) ∧
    ∀ p, p < procs → ∀ x, x ∈ s.undo p → s.minRet ≤ x ∧ s.cleaned ≤ x

end Verif.UndoLog
