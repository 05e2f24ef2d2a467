/-
What the properties about replay say, stated on the side of the clients of the primary: transactions
with nested subtransactions that write to a table, and the table of committed rows.
-/
import Verif.Replay.Model

namespace Verif.Replay

/-- What the client of a transaction does.  `sub`: a subtransaction begins (SAVEPOINT, or a PL/pgSQL
block with an EXCEPTION clause); `release`, `rollback`: the innermost one ends.  `ROLLBACK TO`
an outer savepoint ends the inner ones first, then begins a new one. -/
inductive Ev where
  | ins (x pk : Nat) (r : Row)
  | upd (x pk : Nat) (r : Row)
  | del (x pk : Nat)
  | sub (x : Nat)
  | release (x : Nat)
  | rollback (x : Nat)
  | commit (x : Nat)
  | abort (x : Nat)

/-- The writes of one level of a transaction: primary key to value written (`some none`: deleted). -/
abbrev Frame := Nat → Option (Option Row)

/-- A transaction in progress: its own writes outside any open subtransaction, and the open
subtransactions, innermost first, each with its writes and the number of its parent; the number of
the subtransaction it is in, and the last number given. -/
structure Tx where
  outer : Frame
  subs : List (Nat × Frame)
  cur : Nat
  cnt : Nat

/-- The primary: the committed rows, the transactions, which of them are finished, and who holds the
lock on a row. -/
structure PSt where
  base : Nat → Option Row
  tx : Nat → Tx
  fin : Nat → Bool
  owner : Nat → Option Nat

/-- Nothing written. -/
def noFrame : Frame := fun _ => none

/-- The writes of `f` over those of `g`. -/
def over (f g : Frame) : Frame := fun pk => (f pk).or (g pk)

/-- The levels of a transaction, innermost first. -/
def Tx.frames (t : Tx) : List Frame := t.subs.map (·.2) ++ [t.outer]

/-- What a transaction has written to a row, if anything. -/
def Tx.wrote (t : Tx) (pk : Nat) : Option (Option Row) := t.frames.findSome? (· pk)

/-- The row as the transaction sees it. -/
def PSt.look (p : PSt) (x pk : Nat) : Option Row := ((p.tx x).wrote pk).getD (p.base pk)

/-- A write in the innermost level. -/
def Tx.write (t : Tx) (pk : Nat) (v : Option Row) : Tx :=
  match t.subs with
  | [] => { t with outer := fun q => if q = pk then some v else t.outer q }
  | (p, f) :: ss => { t with subs := (p, fun q => if q = pk then some v else f q) :: ss }

/-- May the transaction write to the row: it is not finished, and the row is not locked by another. -/
def PSt.mayWrite (p : PSt) (x pk : Nat) : Bool :=
  !p.fin x && (p.owner pk == none || p.owner pk == some x)

/-- The row is written, and locked. -/
def PSt.write (p : PSt) (x pk : Nat) (v : Option Row) : PSt :=
  { p with tx := upd p.tx x ((p.tx x).write pk v), owner := upd p.owner pk (some x) }

/-- The locks of a transaction after it has lost some of its writes. -/
def PSt.unlock (p : PSt) (x : Nat) (t : Tx) : Nat → Option Nat :=
  fun pk => if p.owner pk = some x ∧ t.wrote pk = none then none else p.owner pk

/-- One step on the primary, and the records it writes; `none`: the step is refused (error, wait, or
nothing to end). -/
def pstep (p : PSt) : Ev → Option (PSt × List Rec)
  | .ins x pk r =>
    if p.mayWrite x pk ∧ p.look x pk = none then some (p.write x pk (some r), [.ins x pk r]) else none
  | .upd x pk r =>
    if p.mayWrite x pk ∧ (p.look x pk).isSome then some (p.write x pk (some r), [.upd x pk r])
    else none
  | .del x pk =>
    if p.mayWrite x pk ∧ (p.look x pk).isSome then some (p.write x pk none, [.del x pk]) else none
  | .sub x =>
    if p.fin x then none
    else
      let t := p.tx x
      some ({ p with tx := upd p.tx x { t with subs := (t.cur, noFrame) :: t.subs, cur := t.cnt + 1,
                                               cnt := t.cnt + 1 } }, [.savepoint x t.cur])
  | .release x =>
    if p.fin x then none
    else
      let t := p.tx x
      match t.subs with
      | [] => none
      | [(q, f)] => some ({ p with tx := upd p.tx x { t with outer := over f t.outer, subs := [],
                                                             cur := q } }, [])
      | (q, f) :: (q', g) :: ss =>
        some ({ p with tx := upd p.tx x { t with subs := (q', over f g) :: ss, cur := q } }, [])
  | .rollback x =>
    if p.fin x then none
    else
      let t := p.tx x
      match t.subs with
      | [] => none
      | (q, _) :: ss =>
        let t' := { t with subs := ss, cur := q }
        some ({ p with tx := upd p.tx x t', owner := p.unlock x t' }, [.rollbackTo x q])
  | .commit x =>
    if p.fin x || !(p.tx x).subs.isEmpty then none
    else
      some ({ p with base := fun pk => p.look x pk, fin := upd p.fin x true,
                     owner := fun pk => if p.owner pk = some x then none else p.owner pk },
            [.commit x])
  | .abort x =>
    if p.fin x then none
    else
      some ({ p with fin := upd p.fin x true,
                     owner := fun pk => if p.owner pk = some x then none else p.owner pk },
            [.abort x])

/-- A history on the primary: its final state and the log. -/
def prun : PSt → List Ev → Option (PSt × List Rec)
  | p, [] => some (p, [])
  | p, e :: es =>
    match pstep p e with
    | none => none
    | some (p', rs) =>
      match prun p' es with
      | none => none
      | some (p'', rs') => some (p'', rs ++ rs')

/-- The primary at the beginning: a table, no transaction has done anything; transaction 0, which
filled the table, is finished. -/
def pinit (base : Nat → Option Row) : PSt where
  base := base
  tx := fun _ => ⟨noFrame, [], 1, 1⟩
  fin := fun x => x == 0
  owner := fun _ => none

/-- The entry that a row calls for in an index under a key. -/
def wanted (ix : Index) (row : Option Row) (k : List Nat) : Option (List Cell) :=
  match row with
  | none => none
  | some r => if ix.pred r = true ∧ ix.key r = k then some (ix.cells r) else none

/-- The replaying node shows the committed rows of the primary. -/
def RowsRight (p : PSt) (st : St) : Prop :=
  ∀ pk, seen st.done (st.rows pk .prim) = p.base pk

/-- The secondary indexes of the replaying node hold the entries of the committed rows: each index
has, for each row, the entry called for and no other. -/
def EntriesRight (ixs : List Index) (p : PSt) (st : St) : Prop :=
  ∀ (i : Nat) ix, ixs[i]? = some ix → ∀ pk k,
    seen st.done (st.rows pk (.sec i k)) = wanted ix (p.base pk) k

/-! ### Conditions under which the properties hold -/

/-- No subtransaction is rolled back within which an inner one was released.  The argument: per
transaction, for each open subtransaction, innermost first, whether one was released within it. -/
def NoReleasedInside : (Nat → List Bool) → List Ev → Prop
  | _, [] => True
  | m, .sub x :: es => NoReleasedInside (upd m x (false :: m x)) es
  | m, .release x :: es =>
    NoReleasedInside (upd m x (match m x with
      | _ :: _ :: bs => true :: bs
      | _ => [])) es
  | m, .rollback x :: es => (m x).head? = some false ∧ NoReleasedInside (upd m x (m x).tail) es
  | m, _ :: es => NoReleasedInside m es

/-- No transaction writes to a row in a subtransaction after it has written to the row outside of
it. -/
def NoWriteAcross : PSt → List Ev → Prop
  | _, [] => True
  | p, e :: es =>
    (match e with
     | .ins x pk _ | .upd x pk _ | .del x pk => ∀ f ∈ (p.tx x).frames.tail, f pk = none
     | _ => True) ∧
    (match pstep p e with
     | none => True
     | some (p', _) => NoWriteAcross p' es)

/-- Every update that leaves the key of an index as it is (for comparison) leaves its entry as it
is: same bytes, INCLUDE columns, and same value of the predicate. -/
def SameKeySameEntry (ixs : List Index) : PSt → List Ev → Prop
  | _, [] => True
  | p, e :: es =>
    (match e with
     | .upd x pk r => ∀ ix ∈ ixs, ∀ old, p.look x pk = some old → ix.key r = ix.key old →
         ix.pred r = ix.pred old ∧ (ix.pred r = true → ix.cells r = ix.cells old)
     | _ => True) ∧
    (match pstep p e with
     | none => True
     | some (p', _) => SameKeySameEntry ixs p' es)

end Verif.Replay
