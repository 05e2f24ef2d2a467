import Verif.OxidMap.Model

/-!
# What a map of statuses is

A transaction id has one status at a time; it is what the last `lin` of the history says
(newest first), and before the first one the transaction has not started.
-/

namespace Verif.OxidMap

/-- The status of a transaction. -/
def value : List Ev → Nat → Csn
  | [], _ => .frozen
  | .lin y v :: tr, x => if y = x then v else value tr x
  | _ :: tr, x => value tr x

/-- Some moment since the call: `mid` is the history at a time when session `p` had already
made call `c` and it had not returned (`tr` is the history now). -/
def During (p : Nat) (c : Call) (tr mid : List Ev) : Prop :=
  ∃ later earlier sofar, tr = later ++ mid ∧ mid = sofar ++ .call p c :: earlier ∧
    (∀ c', Ev.call p c' ∉ later ++ sofar) ∧ ∀ c' v, Ev.ret p c' v ∉ later ++ sofar

/-- A look-up gives the status the transaction had at a moment between call and return; or
it gives `frozen`, and then the transaction is below `globalXmin`, and over. -/
def Gets (tr : List Ev) : Prop :=
  ∀ later p x v earlier, tr = later ++ .ret p (.get x) v :: earlier →
    (∃ mid, During p (.get x) earlier mid ∧ value mid x = v) ∨
    (v = .frozen ∧ (value earlier x).finished = true ∧ ∃ g, Ev.global g ∈ earlier ∧ x < g)

/-- A change of a status takes effect at a moment between call and return. -/
def Sets (tr : List Ev) : Prop :=
  ∀ later p x v earlier, tr = later ++ .ret p (.set x v) v :: earlier →
    ∃ mid, During p (.set x v) earlier (.lin x v :: mid)

/-- No status changes without a call in progress that asks for it. -/
def NothingElse (tr : List Ev) : Prop :=
  ∀ later x v earlier, tr = later ++ .lin x v :: earlier →
    ∃ p, During p (.set x v) earlier earlier

/-- C19: statuses are found as they were set. -/
def C19 (tr : List Ev) : Prop := Gets tr ∧ Sets tr ∧ NothingElse tr

/-- The transaction is over: its commit or abort has taken effect. -/
def Over (tr : List Ev) (x : Nat) : Prop := (value tr x).finished = true

/-- C20 about a state: `runXmin` has passed only transactions that are over, and when no
call is in progress it has passed all it can. -/
structure C20 (c : Cfg) (s : St) : Prop where
  safe : ∀ x, c.start ≤ x → x < s.run → Over s.tr x
  atMost : s.run ≤ s.next
  caughtUp : (∀ p, s.pc p = .idle) → ¬ Over s.tr s.run
  all : (∀ p, s.pc p = .idle) → (∀ p, s.own p = none) → s.run = s.next

/-! ## What the code does not exclude -/

/-- The page of which the checkpointer has read the part that is already in the files, to
write it back as a whole (`src/transam/oxid.c:1155-1195`). -/
def readBack (s : St) : Option Nat :=
  match s.lock with
  | none => none
  | some q =>
    match s.pc q with
    | .flCopy pg true _ => some pg
    | .flRefresh pg true _ => some pg
    | .flDisk pg true _ => some pg
    | _ => none

/-- The page the checkpointer writes to disk past its buffer
(`o_buffers_write_page_direct`, `src/utils/o_buffers.c:444-474`). -/
def writingPast (s : St) : Option Nat :=
  match s.lock with
  | none => none
  | some q =>
    match s.pc q with
    | .flDisk pg true _ => some pg
    | _ => none

/-- The three cases in which statuses get lost do not happen at this step: no status is set
in the files in a page the checkpointer is writing back; no buffer is loaded from disk just
before the checkpointer writes the page to disk; no buffer is marked clean that differs from
the disk. -/
def calm (c : Cfg) (s : St) : Act → Bool
  | .evict pg => writingPast s != some pg
  | .go p =>
    match s.pc p with
    | .setFile x _ false => readBack s != some (x / c.page)
    | .drainWrite ws we _ buf false =>
      (List.range we).all fun x => decide (x < c.start) || decide (x / c.page ≠ ws / c.page) ||
        decide (setRange s.file ws we buf x = s.disk x) || decide (x < s.glob)
    | _ => true
  | _ => true

/-- At no step of the run. -/
def calmRun (c : Cfg) : St → List Act → Bool
  | _, [] => true
  | s, a :: as => calm c s a && calmRun c (step c s a) as

end Verif.OxidMap
