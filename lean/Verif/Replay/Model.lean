/-
Replay of the write-ahead log on a table: what a standby (or the start-up process after a crash)
does with the records that the primary wrote for the rows of a table, its secondary indexes, and the
savepoints of its transactions.

One replaying process is modelled.  With several workers each of them does the same for the rows that
are hashed to it (recovery.c:5815-5848); the savepoint and finish records go to all of them.
-/

namespace Verif.Replay

/-- A column value: its bytes (`img`) and its place in the order of the index's operator class
(`cls`).  Values that compare equal have the same `cls` and may differ in `img`
(numeric 1.0 and 1.00; text under a case-insensitive collation).
`o_idx_cmp` compares by class: src/tableam/tree.c:881-951.
`is_keys_eq` compares by image: src/tableam/operations.c:3112-3140. -/
structure Cell where
  img : Nat
  cls : Nat
deriving DecidableEq, Repr, Inhabited

/-- A row: its columns other than the primary key. -/
abbrev Row := List Cell

/-- A secondary index: key columns, INCLUDE columns, predicate (constantly true if the index is not
partial).  The primary key columns that end every key are left out of `keys`: the model keeps the
entries of every row apart (`Slot`), which is what those columns do.
OIndexDescr; INCLUDE columns take part in comparisons as `OIgnoreColumn`:
include/tableam/descr.h:265-268. -/
structure Index where
  keys : List Nat
  incl : List Nat
  pred : Row → Bool

/-- Column `a` of a row. -/
def col (r : Row) (a : Nat) : Cell := r.getD a default

/-- The key by which an entry is found: the classes of the key columns.
`tts_orioledb_fill_key_bound`: src/tuple/slot.c:1140-1179. -/
def Index.key (ix : Index) (r : Row) : List Nat := ix.keys.map fun a => (col r a).cls

/-- What an entry holds: key columns, then INCLUDE columns.
`tts_orioledb_make_secondary_tuple`. -/
def Index.cells (ix : Index) (r : Row) : List Cell := (ix.keys ++ ix.incl).map (col r)

/-- A version of an item: the transaction that wrote it, the number of the record at which it was
written (that is, the place of its undo record in the undo stack of the transaction), the value
(`none`: deleted).  BTreeLeafTuphdr: include/btree/page_contents.h. -/
structure Ver where
  xid : Nat
  stamp : Nat
  val : Option (List Cell)
deriving DecidableEq, Repr

/-- An item with its undo chain, newest first; `[]`: no item with this key. -/
abbrev Chain := List Ver

/-- The trees of one row: the primary index, and the entries of the row in secondary index `i`,
by key. -/
inductive Slot where
  | prim
  | sec (i : Nat) (k : List Nat)
deriving DecidableEq, Repr

/-- Everything the trees hold for one row. -/
abbrev RowSt := Slot → Chain

/-- Newest value of an item. -/
def top (c : Chain) : Option (List Cell) :=
  match c with
  | [] => none
  | v :: _ => v.val

/-- Take back what transaction `x` wrote from record `n` on: the undo records above the target
location, newest first; an undo record is applied if it is the one that the item points to.
`walk_undo_stack`, `modify_undo_callback`: src/btree/undo.c:518-633. -/
def cut (x n : Nat) (c : Chain) : Chain :=
  c.dropWhile fun v => v.xid == x && decide (n ≤ v.stamp)

/-- Delete an entry of a secondary index during replay.  A live version written by the same
transaction is taken back, and the search is repeated (`OBTreeCallbackActionUndo`); a live version of
another transaction gets a deletion on top; nothing is done to a deleted item, or if there is none.
`recovery_delete_overwrite_callback`: src/recovery/recovery.c:2532-2544;
the callback's action: src/btree/modify.c:246-330; deleted: 408-419; not found: 735-757. -/
def delEntry (x n : Nat) : Chain → Chain
  | [] => []
  | v :: c =>
    if v.val.isSome then
      if v.xid == x then delEntry x n c else ⟨x, n, none⟩ :: v :: c
    else v :: c

/-- Insert an entry of a secondary index during replay.  Any version written by the same transaction
is taken back, and the search is repeated; a version of another transaction is overwritten.
`recovery_insert_overwrite_callback`: src/recovery/recovery.c:2518-2530,
`recovery_insert_deleted_overwrite_callback`: 2588-2601. -/
def insEntry (x n : Nat) (e : List Cell) : Chain → Chain
  | [] => [⟨x, n, some e⟩]
  | v :: c => if v.xid == x then insEntry x n e c else ⟨x, n, some e⟩ :: v :: c

/-- Replay of the insertion of a row.  The entry of every index whose predicate holds is inserted.
The primary index gets a new version: the comparison of tuple versions in
`recovery_insert_primary_callback` (recovery.c:2488-2499) only acts on records applied before, and
here every record is applied once.  Entries too long for a page, and indexes being built, are left
out of the model.  `apply_tbl_insert`: src/recovery/worker.c:960-1090. -/
def applyIns (ixs : List Index) (x n : Nat) (r : Row) (st : RowSt) : RowSt
  | .prim => ⟨x, n, some r⟩ :: st .prim
  | .sec i k =>
    match ixs[i]? with
    | some ix => if ix.pred r && ix.key r == k then insEntry x n (ix.cells r) (st (.sec i k))
                 else st (.sec i k)
    | none => st (.sec i k)

/-- Replay of the deletion of a row.  The row deleted is found in the primary index; the entry of
every index whose predicate holds for it is deleted.  Nothing happens if there is no row.
`apply_tbl_delete`: src/recovery/worker.c:1092-1174; `o_delete_copy_callback`: 96-124. -/
def applyDel (ixs : List Index) (x n : Nat) (st : RowSt) : RowSt :=
  match top (st .prim) with
  | none => st
  | some old => fun s =>
    match s with
    | .prim => ⟨x, n, none⟩ :: st .prim
    | .sec i k =>
      match ixs[i]? with
      | some ix => if ix.pred old && ix.key old == k then delEntry x n (st (.sec i k))
                   else st (.sec i k)
      | none => st (.sec i k)

/-- What the replay of an update does to the item with key `k` of one index.  The keys of the old and
the new row are compared; if they are equal, nothing is done; otherwise the old entry is deleted if
the old row meets the predicate, and the new one is inserted if the new row does.
src/recovery/worker.c:1236-1297. -/
def updEntry (ix : Index) (x n : Nat) (old new : Row) (k : List Nat) (c : Chain) : Chain :=
  if ix.key new = ix.key old then c
  else
    let c := if ix.pred old && ix.key old == k then delEntry x n c else c
    if ix.pred new && ix.key new == k then insEntry x n (ix.cells new) c else c

/-- Replay of the update of a row.  Nothing happens if there is no row.
`apply_tbl_update`: src/recovery/worker.c:1176-1300; `o_update_copy_callback`: 126-154. -/
def applyUpd (ixs : List Index) (x n : Nat) (r : Row) (st : RowSt) : RowSt :=
  match top (st .prim) with
  | none => st
  | some old => fun s =>
    match s with
    | .prim => ⟨x, n, some r⟩ :: st .prim
    | .sec i k =>
      match ixs[i]? with
      | some ix => updEntry ix x n old r k (st (.sec i k))
      | none => st (.sec i k)

/-- The records.  `savepoint` and `rollbackTo` carry the parent of the subtransaction.  No record is
written when a subtransaction commits (`RELEASE SAVEPOINT`, or the end of a PL/pgSQL block with an
EXCEPTION clause).  src/transam/undo.c:2987-3056; include/recovery/wal.h. -/
inductive Rec where
  | ins (x pk : Nat) (r : Row)
  | upd (x pk : Nat) (r : Row)
  | del (x pk : Nat)
  | savepoint (x parent : Nat)
  | rollbackTo (x parent : Nat)
  | commit (x : Nat)
  | abort (x : Nat)

/-- The state of the replaying node: the trees, by primary key; per transaction the stack of
savepoint items (parent, place in the undo stack), newest first; the number of the next record; the
transactions that have committed. -/
structure St where
  rows : Nat → RowSt
  sps : Nat → List (Nat × Nat)
  next : Nat
  done : Nat → Bool

/-- Change a function at one point. -/
def upd {α : Type} (f : Nat → α) (i : Nat) (a : α) : Nat → α := fun j => if j = i then a else f j

/-- Target of a rollback to a savepoint with `UndoStackTail`: only the newest savepoint item is
looked at.  If its parent is the one asked for, it is the target; otherwise everything the process
has replayed of the transaction is taken back.  Result: place in the undo stack, and what is left of
the savepoint items.  `search_for_undo_sub_location`: src/transam/undo.c:2845-2904,
`rollback_to_savepoint`: 2921-2958, `recovery_rollback_to_savepoint`:
src/recovery/recovery.c:2474-2486. -/
def target (parent : Nat) : List (Nat × Nat) → Nat × List (Nat × Nat)
  | (p, n) :: rest => if p = parent then (n, rest) else (0, [])
  | [] => (0, [])

/-- Replay of one record.  `replay_on_record`: src/recovery/recovery.c:4645-5200, for the data
records 5026-5200, for savepoints 4960-4977; an abort applies the whole undo stack of the transaction
(`recovery_finish_current_oxid`: 2331-2449). -/
def rstep (ixs : List Index) (st : St) : Rec → St
  | .ins x pk r =>
    { st with rows := upd st.rows pk (applyIns ixs x st.next r (st.rows pk)), next := st.next + 1 }
  | .upd x pk r =>
    { st with rows := upd st.rows pk (applyUpd ixs x st.next r (st.rows pk)), next := st.next + 1 }
  | .del x pk =>
    { st with rows := upd st.rows pk (applyDel ixs x st.next (st.rows pk)), next := st.next + 1 }
  | .savepoint x p =>
    { st with sps := upd st.sps x ((p, st.next) :: st.sps x), next := st.next + 1 }
  | .rollbackTo x p =>
    let t := target p (st.sps x)
    { st with rows := fun pk s => cut x t.1 (st.rows pk s), sps := upd st.sps x t.2,
              next := st.next + 1 }
  | .commit x => { st with done := upd st.done x true, next := st.next + 1 }
  | .abort x => { st with rows := fun pk s => cut x 0 (st.rows pk s), sps := upd st.sps x [],
                          next := st.next + 1 }

/-- Replay of a log. -/
def replay (ixs : List Index) (st : St) (log : List Rec) : St := log.foldl (rstep ixs) st

/-- What the trees hold for a row at the beginning: one version each, of transaction 0, which has
committed. -/
def initRow (ixs : List Index) : Option Row → RowSt
  | none => fun _ => []
  | some r => fun s =>
    match s with
    | .prim => [⟨0, 0, some r⟩]
    | .sec i k =>
      match ixs[i]? with
      | some ix => if ix.pred r && ix.key r == k then [⟨0, 0, some (ix.cells r)⟩] else []
      | none => []

/-- The replaying node at the beginning: a copy of the table of the primary. -/
def init (ixs : List Index) (base : Nat → Option Row) : St where
  rows := fun pk => initRow ixs (base pk)
  sps := fun _ => []
  next := 1
  done := fun x => x == 0

/-- What a query on the replaying node finds in an item: the newest version of a committed
transaction (versions of aborted transactions are taken out by the abort).
`o_find_tuple_version`. -/
def seen (done : Nat → Bool) (c : Chain) : Option (List Cell) :=
  match c.find? fun v => done v.xid with
  | none => none
  | some v => v.val

end Verif.Replay
