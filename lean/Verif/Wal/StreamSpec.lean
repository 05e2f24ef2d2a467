import Verif.Wal.Reader
import Verif.Wal.Writer
/-!
# What the WAL stream of a backend is supposed to say

Independent of how the buffer works: the row changes and transaction events a
sequence of operations issues, the ones a reader of the emitted containers
sees, and the discipline callers follow.
-/

namespace Verif.Wal

/-- What happens to a tree: a row change with its tuple images, or the removal
of a bridge index entry. -/
inductive Act where
  | row (kind : ModKind) (t1 : Tup) (t2 : Option Tup)
  | erase (hi lo pos : UInt16)
  deriving Repr, DecidableEq

/-- A change as issued or as replayed: target tree and action. -/
structure Change where
  tree : Oids
  treeType : UInt8
  act : Act
  deriving Repr, DecidableEq

/-- Is the change a row change? -/
def Change.isRow (c : Change) : Bool :=
  match c.act with
  | .row .. => true
  | .erase .. => false

/-- How WAL names a tree: the primary index of a user table stands for the
table (the table's oids and no index type), every other tree for itself. -/
def Desc.loggedAs (d : Desc) : Oids × UInt8 :=
  if d.type = 3 then
    if d.oids.datoid = 1 then (d.oids, 3) else (d.tableOids, 0)
  else (d.oids, d.type)

/-- The change an operation issues (WAL is not written while the backend acts
for recovery). -/
def Op.issues : Op → List Change
  | .modify e k d t1 t2 _ _ _ =>
      if e.inRecovery then [] else [⟨d.loggedAs.1, d.loggedAs.2, .row k t1 t2⟩]
  | .bridgeErase e d _ hi lo pos _ _ =>
      if e.inRecovery then [] else [⟨d.loggedAs.1, d.loggedAs.2, .erase hi lo pos⟩]
  | _ => []

/-- The changes a sequence of operations issues, in order. -/
def issuedChanges (ops : List Op) : List Change := ops.flatMap Op.issues

/-- The change a delivered record stands for. -/
def Delivered.change (d : Delivered) : Option Change :=
  match d.record with
  | .modify k t1 t2 => some ⟨d.ctx.oids, d.ctx.treeType, .row k t1 t2⟩
  | .bridgeErase hi lo pos => some ⟨d.ctx.oids, d.ctx.treeType, .erase hi lo pos⟩
  | _ => none

/-- Reading the emitted containers one after another.  `tail` is whatever lies
in memory behind each container. -/
def readAll (tail : Nat → UInt8) (out : List (List UInt8)) : List Outcome :=
  out.map fun bs => parseContainer (bufOf bs tail)

/-- All records delivered by reading the containers. -/
def delivered (tail : Nat → UInt8) (out : List (List UInt8)) : List Delivered :=
  (readAll tail out).flatMap (·.records)

/-- Records that belong to a transaction: row changes, transaction ends,
savepoint records, DDL records. -/
def Rec.transactional : Rec → Bool
  | .modify .. | .commit .. | .rollback .. | .jointCommit .. | .savepoint .. | .rbToSp ..
  | .metaLock | .metaUnlock .. | .truncate .. | .dbCopy .. | .dbCreateCopy ..
  | .dbTemplateCheckpoint .. | .cic .. => true
  | _ => false

/-- Is the record a row change? -/
def Rec.isRow : Rec → Bool
  | .modify .. => true
  | _ => false

/-- Does the record end a transaction (or hand it over to a heap transaction)? -/
def Rec.isEnd : Rec → Bool
  | .commit .. | .rollback .. | .jointCommit .. => true
  | _ => false

/-- Transaction id and record, for the transactional records. -/
abbrev Event := UInt64 × Rec

/-- The transactional events an operation issues, with the issuing transaction. -/
def Op.events : Op → List Event
  | .modify e k _ t1 t2 _ _ _ => if e.inRecovery then [] else [(e.oxid, .modify k t1 t2)]
  | .plain e p => [(e.oxid, p.record e)]
  | .cic e ph o tr tn ver => [(e.oxid, .cic ph o tr tn ver)]
  | .rbToSp e p => [(e.oxid, .rbToSp p e.runXmin e.csn)]
  | .commit e => [(e.oxid, .commit e.runXmin e.csn)]
  | .rollback e => [(e.oxid, .rollback e.runXmin e.csn)]
  | .jointCommit e x sub => [(e.oxid, .jointCommit x e.runXmin e.csn sub)]
  | .endAuto e ho c =>
      if ho then [(e.oxid, if c then .commit e.runXmin e.csn else .rollback e.runXmin e.csn)]
      else []
  | _ => []

/-- Events issued by a sequence of operations. -/
def issuedEvents (ops : List Op) : List Event := ops.flatMap Op.events

/-- The event a delivered record stands for: the transaction is the one named
by the last XID record before it. -/
def Delivered.event (d : Delivered) : Option Event :=
  if d.record.transactional then some (d.ctx.oxid, d.record) else none

/-! ### Discipline of the callers -/

/-- What is known about the backend when it issues the next operation: current
transaction, whether it has logged anything / a row change since it began (or
since its last joint commit), the tree and replica identity of the last row
change since the last explicit flush, and the same for suspended outer
transactions. -/
structure Ghost where
  cur : Option UInt64 := none
  any : Bool := false
  row : Bool := false
  last : Option (Oids × UInt8 × UInt8) := none
  stack : List (Option UInt64 × Bool × Bool) := []

/-- The operation runs in the current transaction (or starts it). -/
def Ghost.owns (g : Ghost) (e : Env) : Prop := g.cur = none ∨ g.cur = some e.oxid

/-- Row-change tuples: the old image is there exactly for REINSERT and UPDATE
under REPLICA IDENTITY FULL (asserted at src/recovery/wal.c:100-114), the two
tuples fit in a fresh buffer (guaranteed by `O_BTREE_MAX_TUPLE_SIZE`), and the
tree is a valid one. -/
def tuplesOk (k : ModKind) (d : Desc) (t1 : Tup) (t2 : Option Tup) (rr : UInt8) : Prop :=
  (t2.isSome ↔ (k = .reinsert ∨ (k = .update ∧ rr = replFull))) ∧
  t1.data.length + optLen t2 ≤ 8116 ∧ d.loggedAs.1.datoid ≠ 0

/-- The replica identity of a tree does not change while its changes pile up in
the buffer (every utility command flushes first, src/catalog/ddl.c:1059). -/
def Ghost.identityOk (g : Ghost) (t : Oids × UInt8) (rr : UInt8) : Prop :=
  ∀ rr', g.last = some (t.1, t.2, rr') → rr' = rr

/-- Preconditions of an operation. -/
def Ghost.ok (g : Ghost) : Op → Prop
  | .modify e k d t1 t2 rr _ _ =>
      e.inRecovery = true ∨ (tuplesOk k d t1 t2 rr ∧ g.owns e ∧ g.identityOk d.loggedAs rr)
  | .bridgeErase e d ho _ _ _ _ _ =>
      e.inRecovery = true ∨
        (d.loggedAs.1.datoid ≠ 0 ∧ (if ho then g.owns e else g.cur = none) ∧
          g.identityOk d.loggedAs replDefault)
  | .plain e _ | .cic e _ _ _ _ _ | .rbToSp e _ | .commit e | .rollback e
  | .jointCommit e _ _ => g.owns e
  | .endAuto e ho _ => (if ho then g.owns e else g.cur = none) ∧ g.stack ≠ []
  | .switchXid .. | .flush _ | .startAuto _ => True

/-- How an operation changes what is known. -/
def Ghost.step (g : Ghost) : Op → Ghost
  | .modify e _ d _ _ rr _ _ =>
      if e.inRecovery then g
      else { g with cur := some e.oxid, any := true, row := true,
                    last := some (d.loggedAs.1, d.loggedAs.2, rr) }
  | .bridgeErase e d ho _ _ _ _ _ =>
      if e.inRecovery then g
      else
        { g with cur := if ho then some e.oxid else g.cur, any := g.any || ho,
                 last := some (d.loggedAs.1, d.loggedAs.2, replDefault) }
  | .plain e _ => { g with cur := some e.oxid, any := true }
  | .cic e _ _ _ _ _ => { g with cur := some e.oxid, any := true, last := none }
  | .rbToSp e _ => { g with cur := some e.oxid, any := true, last := none }
  | .commit _ | .rollback _ => { g with cur := none, any := false, row := false, last := none }
  | .jointCommit e _ sub =>
      { g with cur := if sub then some e.oxid else none, any := false, row := false, last := none }
  | .flush _ => { g with last := none }
  | .switchXid .. => g
  | .startAuto _ =>
      { cur := none, any := false, row := false, last := none,
        stack := (g.cur, g.any, g.row) :: g.stack }
  | .endAuto _ ho _ =>
      match g.stack with
      | [] => g
      | (c, a, r) :: st =>
        { cur := c, any := a, row := r, last := if ho then none else g.last, stack := st }

/-- The events that must reach WAL: row changes, joint commits, and the end of
every transaction that issued a row change. -/
def Op.required (g : Ghost) (op : Op) : List Event :=
  match op with
  | .commit _ | .rollback _ => if g.row then op.events else []
  | .endAuto .. => if g.row then op.events else []
  | .modify .. | .jointCommit .. => op.events
  | _ => []

/-- All events that must reach WAL. -/
def requiredEvents : Ghost → List Op → List Event
  | _, [] => []
  | g, op :: ops => op.required g ++ requiredEvents (g.step op) ops

/-- Sequences of operations a backend can issue. -/
def Legal : Ghost → List Op → Prop
  | _, [] => True
  | g, op :: ops => g.ok op ∧ Legal (g.step op) ops

/-- If the operation ends a transaction through `wal_commit`/`wal_rollback` and
that transaction logged anything, then it logged a row change. -/
def Ghost.finishOk (g : Ghost) : Op → Prop
  | .commit _ | .rollback _ => g.any = true → g.row = true
  | .endAuto _ ho _ => ho = true → g.any = true → g.row = true
  | _ => True

/-- Every transaction that logged anything logged a row change before it ended
through `wal_commit`/`wal_rollback`. -/
def NoEmptyFinish : Ghost → List Op → Prop
  | _, [] => True
  | g, op :: ops => g.finishOk op ∧ NoEmptyFinish (g.step op) ops

end Verif.Wal
