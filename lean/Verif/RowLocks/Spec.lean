/-
What row locks and rollback promise, in terms of what can be seen from outside.

A log of the requests that were granted, newest first, is all there is: nothing
in the promises mentions headers, undo records or the code that keeps them.
-/
import Verif.RowLocks.Model

namespace Verif.RowLocks

/-- The lock modes that exclude each other (PostgreSQL's table of row-level lock
conflicts): 0 `FOR KEY SHARE`, 1 `FOR SHARE`, 2 `FOR NO KEY UPDATE`,
3 `FOR UPDATE`. -/
def Clash : Nat → Nat → Prop
  | 0, n => n = 3
  | 1, n => n = 2 ∨ n = 3
  | 2, n => n = 1 ∨ n = 2 ∨ n = 3
  | _, _ => True

/-- A granted request: who, in which mode, and, for a change, what the row
contains after it (`none` if it is deleted). -/
structure Act where
  who : Nat
  mode : Nat
  val : Option (Option Nat)
deriving DecidableEq, Repr

/-- The log: granted requests newest first, without those of transactions that
were rolled back; the transactions that have ended; those rolling back. -/
structure Log where
  acts : List Act
  ended : Nat → Bool
  leaving : Nat → Bool

/-- Nothing has happened yet. -/
def Log.init : Log := { acts := [], ended := fun _ => false, leaving := fun _ => false }

/-- What a change leaves in the row. -/
def Want.value : Want → Option (Option Nat)
  | .insert v => some (some v)
  | .update v => some (some v)
  | .delete => some none
  | .lock => none

/-- The log after an event: a granted request is added, a rollback that has
ended removes the requests of the transaction. -/
def Log.step (g : Log) : Ev → Log
  | .answered x mode w o =>
    if o = .done then { g with acts := ⟨x, mode, w.value⟩ :: g.acts } else g
  | .committed x => { g with ended := fun y => y = x || g.ended y }
  | .leaving x => { g with leaving := fun y => y = x || g.leaving y }
  | .left x =>
    { g with
        acts := g.acts.filter (fun a => a.who ≠ x)
        ended := fun y => y = x || g.ended y }

/-- The log after a number of events. -/
def Log.after (g : Log) : List Ev → Log
  | [] => g
  | e :: es => (g.step e).after es

/-- `y` holds, from a granted request, a lock that excludes mode `m`. -/
def Log.holds (g : Log) (y m : Nat) : Prop :=
  ∃ a ∈ g.acts, a.who = y ∧ Clash a.mode m

/-- **The promise of C30.**  A request is refused in favour of `y` only if `y`
is another transaction that has not ended and holds a lock that excludes it; and
it gets another answer only if no other transaction that is neither ended nor
rolling back holds such a lock. -/
def Log.ok (g : Log) : Ev → Prop
  | .answered x m _ o =>
    match o with
    | .refused y => y ≠ x ∧ g.ended y = false ∧ g.holds y m
    | .dead => False
    | _ => ∀ y, y ≠ x → g.ended y = false → g.leaving y = false → ¬ g.holds y m
  | _ => True

/-- All events of a run keep the promise. -/
def Log.accepts (g : Log) : List Ev → Prop
  | [] => True
  | e :: es => g.ok e ∧ (g.step e).accepts es

/-- What the row contains: what the newest change left (`none`: no row). -/
def value : List Act → Option Nat
  | [] => none
  | a :: as => match a.val with
    | some v => v
    | none => value as

/-- **The promise of C31.**  When nobody is in the middle of rolling back a
change, the row contains what the newest change by a transaction that was not
rolled back left in it. -/
def Log.contains (g : Log) (content : Option Nat) : Prop :=
  (∀ a ∈ g.acts, a.val ≠ none → g.ended a.who = false → g.leaving a.who = false) →
    content = value g.acts

/-- What a reader of the newest version sees in the row. -/
def St.content (s : St) : Option Nat :=
  match s.row with
  | none => none
  | some row => if row.hdr.deleted then none else some row.tup

/-- The chain of headers, for stating which runs are regular. -/
def chainOf (r : Recs) : Nat → Hdr → List Hdr
  | 0, h => [h]
  | n + 1, h => if h.loc = 0 then [h] else h :: chainOf r n (r h.loc).hdr

/-- A lock of a transaction other than `x` that has ended. -/
def stale (st : Nat → Status) (x : Nat) (h : Hdr) : Bool :=
  h.lockOnly && decide (h.oxid ≠ x) && !inProgress st h.oxid

/-- No two locks of ended transactions follow each other. -/
def noPair (st : Nat → Status) (x : Nat) : List Hdr → Bool
  | [] => true
  | [_] => true
  | h :: g :: t => !(stale st x h && stale st x g) && noPair st x (g :: t)

/-- A request is regular if no two locks of ended transactions are adjacent in
the chain it walks, and, when the number of a transaction in progress compares
below the others (`ipLow`), a change is not weaker than an earlier change of the
row by the same transaction. -/
def St.regular (s : St) : Op → Bool
  | .ask x mode _ w =>
    match s.row with
    | none => true
    | some row =>
      noPair s.st x (chainOf s.recs s.next row.hdr) &&
        (!s.ipLow || w == .lock ||
          (chainOf s.recs s.next row.hdr).all
            (fun h => h.oxid != x || h.lockOnly || decide (h.mode ≤ mode)))
  | _ => true

/-- Every request of the run is regular. -/
def St.regularRun (s : St) : List Op → Bool
  | [] => true
  | op :: ops => s.regular op && (s.step op).1.regularRun ops

end Verif.RowLocks
