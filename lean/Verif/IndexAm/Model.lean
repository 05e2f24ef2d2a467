/-!
# Secondary indexes: their columns, and how INSERT, UPDATE and DELETE keep them

Model of how the columns of a secondary index are laid out
(`src/catalog/o_tables.c`, `src/catalog/o_indices.c`), of the index access method's
`aminsert`, `amupdate` and `amdelete` (`src/indexam/handler.c`), of the functions they
call (`src/tableam/operations.c`), and of which columns of an entry are compared
(`src/tableam/tree.c`).

Left out: concurrency and transactions (C01, C02, C50, C71 and C72 are about them), the
bytes of tuples (C16), pages (C66, C69), values stored out of line, `CREATE INDEX
CONCURRENTLY`, deferred uniqueness checks, `INSERT ... ON CONFLICT`, exclusion
constraints, bridged indexes, the order of entries in the tree, the sizes of arrays.
A statement which ends in an error leaves the table and its indexes as they were.
-/

namespace Verif.IndexAm

/-- The values of a row: the table's columns, then the values of the expressions its
indexes use (`FormIndexDatum` of PostgreSQL computes them; simplified: they are part of
the row), and the row's `ctid`, which is used by tables without a primary key
(`btree_ctid_get_and_inc`, src/tableam/operations.c:454-461). -/
structure Row where
  cols : List (Option Nat)
  ctid : Nat
  deriving DecidableEq, Repr

/-- What a field of an index stands for: a column, an expression (`EXPR_ATTNUM`,
src/catalog/o_tables.c:529) or the row's `ctid` (src/catalog/o_indices.c:516-519). -/
inductive Kind
  | col
  | expr
  | ctid
  deriving DecidableEq, Repr

/-- `OTableIndexField` (include/catalog/o_tables.h; src/catalog/o_tables.c:540-617): what
it stands for, its number, its operator class, and whether its type is `tid`
(`atttypid == TIDOID`).  Ordering and collation are left out. -/
structure Field where
  kind : Kind
  att : Nat
  opc : Nat
  tid : Bool := false
  deriving DecidableEq, Repr

/-- The value of a field in a row: `o_get_tbl_att` and `o_get_idx_expr_att`
(src/tuple/slot.c:984-1065), `FormIndexDatum` for the values given to the access
method.  -/
def Row.get (r : Row) (f : Field) : Option Nat :=
  match f.kind with
  | .ctid => some r.ctid
  | _ => r.cols.getD f.att none

/-- The table: the columns of its primary key; `none` if it has none, so that its rows
are found by `ctid` (`primaryIsCtid`, src/catalog/o_indices.c:552).  INCLUDE columns of
the primary key are left out. -/
structure Table where
  pk : Option (List Field)

/-- An index as declared: its columns, of which the first `nkey` are its key and the
others are in its INCLUDE list, UNIQUE, NULLS NOT DISTINCT (src/catalog/indices.c:625),
and its predicate (`o_is_index_predicate_satisfied`, src/tableam/operations.c:2013-2028;
the executor tests it before it calls the access method). -/
structure Def where
  fields : List Field
  nkey : Nat
  unique : Bool := false
  nnd : Bool := false
  pred : Row → Bool := fun _ => true

/-- `OIndex` (src/catalog/o_indices.c:528-606): the fields of an entry (leaf and
non-leaf tuples have the same fields), the list of columns left out because they were
listed before, the numbers of key and of INCLUDE fields, and where the columns of the
primary key are found (`primaryFieldsAttnums`, here counted from 0).  `pos` says where
each declared column is found; the code works it out from `duplicates`
(src/catalog/o_indices.c:1241-1268). -/
structure OIndex where
  leaf : List Field := []
  dups : List (Nat × Nat) := []
  pos : List Nat := []
  nKey : Nat := 0
  nIncl : Nat := 0
  pkAtt : List Nat := []
  deriving Repr

/-- Two fields stand for the same column (`attnum` is not `EXPR_ATTNUM` and equal,
src/catalog/o_indices.c:349-350). -/
def Field.sameCol (f g : Field) : Bool :=
  f.kind == .col && g.kind == .col && f.att == g.att

/-- Operator class of an INCLUDE column (src/catalog/o_tables.c:533-576): the one it has
in the primary key, if it is part of it, or none. -/
def fillField (pk : Option (List Field)) (nkey i : Nat) (f : Field) : Field :=
  if i < nkey then f
  else
    match (pk.getD []).find? (fun g => g.sameCol f) with
    | some g => { f with opc := g.opc }
    | none => { f with opc := 0 }

/-- The fields of the index (`o_table_fill_index`, src/catalog/o_tables.c:462-626).  -/
def fillIndex (t : Table) (d : Def) : List Field :=
  d.fields.mapIdx (fillField t.pk d.nkey)

/-- `find_existing_field` (src/catalog/o_indices.c:342-357). -/
def findExisting (leaf : List Field) (f : Field) : Option Nat :=
  leaf.findIdx? (fun g => f.sameCol g && f.opc == g.opc)

/-- One turn of the loop in `add_index_fields` for the index's own columns
(src/catalog/o_indices.c:476-513, `fillPrimary` false). -/
def addField (nkey i : Nat) (ix : OIndex) (f : Field) : OIndex :=
  match findExisting ix.leaf f with
  | some j =>
    { ix with
      dups := ix.dups ++ [(ix.leaf.length, j)]
      pos := ix.pos ++ [j]
      nKey := if i < nkey then ix.nKey - 1 else ix.nKey
      nIncl := if i < nkey then ix.nIncl else ix.nIncl - 1 }
  | none => { ix with leaf := ix.leaf ++ [f], pos := ix.pos ++ [ix.leaf.length] }

/-- The loop (src/catalog/o_indices.c:476-513). -/
def addFields (nkey : Nat) : Nat → List Field → OIndex → OIndex
  | _, [], ix => ix
  | i, f :: fs, ix => addFields nkey (i + 1) fs (addField nkey i ix f)

/-- One turn of the same loop for a column of the primary key (`fillPrimary` true,
src/catalog/o_indices.c:482-485 and 508-513). -/
def addPkField (ix : OIndex) (f : Field) : OIndex :=
  match findExisting ix.leaf f with
  | some j => { ix with pkAtt := ix.pkAtt ++ [j] }
  | none => { ix with leaf := ix.leaf ++ [f], pkAtt := ix.pkAtt ++ [ix.leaf.length] }

/-- The field for the `ctid` (src/catalog/o_indices.c:515-523). -/
def ctidField : Field := { kind := .ctid, att := 0, opc := 0, tid := true }

/-- `make_secondary_o_index` (src/catalog/o_indices.c:528-606). -/
def makeIndex (t : Table) (d : Def) : OIndex :=
  let ix := addFields d.nkey 0 (fillIndex t d)
    { nKey := d.nkey, nIncl := d.fields.length - d.nkey }
  let ix := if d.fields.length == d.nkey then { ix with nKey := ix.leaf.length } else ix
  match t.pk with
  | some fs => fs.foldl addPkField ix
  | none => { ix with leaf := ix.leaf ++ [ctidField], pkAtt := ix.pkAtt ++ [ix.leaf.length] }

/-- `OIgnoreColumn` (include/tableam/descr.h:265-268): INCLUDE columns are not
compared. -/
def OIndex.ignored (ix : OIndex) (i : Nat) : Bool :=
  decide (ix.nKey ≤ i) && decide (i < ix.nKey + ix.nIncl)

/-- `nUniqueFields` (src/catalog/o_indices.c:600-603). -/
def nUnique (d : Def) (ix : OIndex) : Nat :=
  if d.unique then ix.nKey else ix.leaf.length

/-- The arrays `values` and `isnull` which the executor hands to the access method. -/
structure Arr where
  v : Nat → Nat
  n : Nat → Bool

/-- Assignment to an element of an array. -/
def upd {α : Type} (f : Nat → α) (i : Nat) (x : α) : Nat → α := fun j => if j = i then x else f j

/-- `FormIndexDatum` of PostgreSQL: the values of all declared columns; a null has the
datum 0.  Elements past the declared columns are not initialised there; here they are
null. -/
def formDatum (d : Def) (r : Row) : Arr where
  v i := ((d.fields[i]?).bind r.get).getD 0
  n i := ((d.fields[i]?).bind r.get).isNone

/-- The loop of `orioledb_aminsert` which takes out the columns listed twice
(src/indexam/handler.c:734-750): it moves `values` and leaves `isnull` as it was. -/
def dedupGo : Nat → Nat → Nat → List (Nat × Nat) → (Nat → Nat) → Nat → Nat
  | 0, _, _, _, v => v
  | k + 1, i, cur, [], v => dedupGo k (i + 1) (cur + 1) [] (upd v cur (v i))
  | k + 1, i, cur, (p, s) :: ds, v =>
    if p = cur then dedupGo k (i + 1) cur ds v
    else dedupGo k (i + 1) (cur + 1) ((p, s) :: ds) (upd v cur (v i))

/-- src/indexam/handler.c:721-751. -/
def dedup (d : Def) (ix : OIndex) (a : Arr) : Arr :=
  if ix.dups.isEmpty then a else { a with v := dedupGo d.fields.length 0 0 ix.dups a.v }

/-- The columns of the primary key in a row: the key of the row's rowid (`o_new_rowid`,
src/indexam/handler.c:1837-1926) and the key of the primary index. -/
def pkOf (t : Table) (r : Row) : List (Option Nat) :=
  match t.pk with
  | some fs => fs.map r.get
  | none => [some r.ctid]

/-- One turn of the loop in `append_rowid_values` (src/indexam/handler.c:577-585). -/
def appendOne (pkFrom : Nat) (a : Arr) (p : Nat × Option Nat) : Arr :=
  if pkFrom ≤ p.1 then { v := upd a.v p.1 (p.2.getD 0), n := upd a.n p.1 p.2.isNone } else a

/-- `append_rowid_values` (src/indexam/handler.c:536-605). -/
def appendRowid (t : Table) (ix : OIndex) (r : Row) (a : Arr) : Arr :=
  match t.pk with
  | some _ =>
    if ix.pkAtt.length ≤ ix.leaf.length then
      (ix.pkAtt.zip (pkOf t r)).foldl (appendOne (ix.leaf.length - ix.pkAtt.length)) a
    else a
  | none =>
    { v := upd a.v (ix.leaf.length - 1) r.ctid, n := upd a.n (ix.leaf.length - 1) false }

/-- An entry of an index: `none` is a null. -/
abbrev Tup := List (Option Nat)

/-- `o_form_tuple` (`o_tuple_fill`, src/tuple/format.c:552-680): its bytes are C16's. -/
def formTuple (ix : OIndex) (a : Arr) : Tup :=
  (List.range ix.leaf.length).map fun i => if a.n i then none else some (a.v i)

/-- `o_has_nulls` (include/tuple/format.h:197-207, src/tuple/format.c:581-590): some field
of the entry is null, whichever it is. -/
def hasNulls (e : Tup) : Bool := e.any Option.isNone

/-- `slot->tts_tid` of a slot holding an entry (`tts_orioledb_init_reader`,
src/tuple/slot.c:891-918): the last field if rows are found by `ctid`; else the slot's
own, which nobody sets (here 0). -/
def slotTid (t : Table) (e : Tup) : Nat :=
  match t.pk with
  | some _ => 0
  | none => (e.getLast?.getD none).getD 0

/-- `fill_key_bound` (src/tableam/operations.c:2031-2082): the fields of the entry,
except that a field of type `tid` is replaced by the slot's `tts_tid`
(src/tableam/operations.c:2051-2068). -/
def keyBound (t : Table) (ix : OIndex) (e : Tup) : Tup :=
  e.mapIdx fun i x => if (ix.leaf[i]?).any (·.tid) then some (slotTid t e) else x

/-- Two values are equal for the operator class of their column
(src/tableam/tree.c:694-710): nulls are equal, other values if `cls` maps them to the
same class.  `cls` stands for the comparison functions, for which different values can
be equal (-0 and 0, or 1.0 and 1.00).  Simplified: one `cls` for all columns. -/
def same (cls : Nat → Nat) (a b : Option Nat) : Bool := a.map cls == b.map cls

/-- `o_idx_cmp_key_bound_to_tuple` (src/tableam/tree.c:716-776) returns 0 for the first
`n` fields. -/
def cmpEq (cls : Nat → Nat) (ix : OIndex) (n : Nat) (key e : Tup) : Bool :=
  (List.range n).all fun i =>
    ix.ignored i || same cls (key.getD i none) (e.getD i none)

/-- `o_btree_modify` with `BTreeOperationInsert` (src/btree/modify.c:216-283): `none` if
an entry with an equal key is there (`OBTreeModifyResultFound`). -/
def treeInsert (cls : Nat → Nat) (ix : OIndex) (key e : Tup) (es : List Tup) :
    Option (List Tup) :=
  if es.any (cmpEq cls ix ix.leaf.length key) then none else some (e :: es)

/-- `o_btree_insert_unique` (src/btree/modify.c:1299-1601) with `UNIQUE_CHECK_YES`: first
looks for an entry with equal unique fields (`page_unique_check`,
src/btree/modify.c:1205-1252). -/
def treeUnique (cls : Nat → Nat) (d : Def) (ix : OIndex) (key e : Tup) (es : List Tup) :
    Option (List Tup) :=
  if es.any (cmpEq cls ix (nUnique d ix) key) then none else treeInsert cls ix key e es

/-- `o_btree_modify` with `BTreeOperationDelete`: `none` if no entry has the key. -/
def treeDelete (cls : Nat → Nat) (ix : OIndex) (key : Tup) (es : List Tup) :
    Option (List Tup) :=
  if es.any (cmpEq cls ix ix.leaf.length key) then
    some (es.eraseP (cmpEq cls ix ix.leaf.length key))
  else none

/-- `o_tbl_index_insert` for a secondary index, called with the entry
(src/tableam/operations.c:2472-2548). -/
def indexInsert (cls : Nat → Nat) (t : Table) (d : Def) (ix : OIndex) (e : Tup)
    (es : List Tup) : Option (List Tup) :=
  if !d.unique || (!d.nnd && hasNulls e) then treeInsert cls ix (keyBound t ix e) e es
  else treeUnique cls d ix (keyBound t ix e) e es

/-- `orioledb_aminsert` (src/indexam/handler.c:631-785): the entry is formed from the
declared columns and the rowid; `none` is an error.  If the entry is not inserted and
the index is not unique (`UNIQUE_CHECK_NO`), nothing is reported
(src/indexam/handler.c:770-779). -/
def aminsert (cls : Nat → Nat) (t : Table) (d : Def) (r : Row) (es : List Tup) :
    Option (List Tup) :=
  let ix := makeIndex t d
  let e := formTuple ix (appendRowid t ix r (dedup d ix (formDatum d r)))
  match indexInsert cls t d ix e es with
  | some es' => some es'
  | none => if d.unique then none else some es

/-- The entry which `orioledb_amupdate` and `orioledb_amdelete` form for a row
(src/indexam/handler.c:850-879 and 1009-1020): columns listed twice are not taken
out. -/
def amEntry (t : Table) (d : Def) (r : Row) : Tup :=
  formTuple (makeIndex t d) (appendRowid t (makeIndex t d) r (formDatum d r))

/-- `o_update_secondary_index` (src/tableam/operations.c:2084-2155) and what
`orioledb_amupdate` does with its result (src/indexam/handler.c:895-953): `none` is an
error; if the new entry is not inserted and the index is not unique, nothing is
reported.  `is_keys_eq` (src/tableam/operations.c:3108-3141) is equality of the bytes. -/
def amupdate (cls : Nat → Nat) (t : Table) (d : Def) (old new : Row) (es : List Tup) :
    Option (List Tup) :=
  let ix := makeIndex t d
  let oe := amEntry t d old
  let ne := amEntry t d new
  let okey := keyBound t ix oe
  let nkey := keyBound t ix ne
  if okey == nkey && (d.pred old == d.pred new) then some es
  else
    match (if d.pred old then treeDelete cls ix okey es else some es) with
    | none => none
    | some es' =>
      if d.pred new then
        match (if !d.unique || hasNulls ne then treeInsert cls ix nkey ne es'
          else treeUnique cls d ix nkey ne es') with
        | some es'' => some es''
        | none => if d.unique then none else some es'
      else some es'

/-- `orioledb_amdelete` (src/indexam/handler.c:965-1093) with `o_tbl_index_delete`
(src/tableam/operations.c:2316-2392): if there is no such entry, `result.action` is 0,
which is `BTreeOperationInsert`, and nothing is reported
(src/indexam/handler.c:1076-1077). -/
def amdelete (cls : Nat → Nat) (t : Table) (d : Def) (r : Row) (es : List Tup) : List Tup :=
  let ix := makeIndex t d
  (treeDelete cls ix (keyBound t ix (amEntry t d r)) es).getD es

/-- The table's rows (the primary index, kept as a set), its secondary indexes' entries,
and the next `ctid`. -/
structure DB where
  rows : List Row := []
  trees : List (List Tup)
  next : Nat := 1

/-- Equality of primary keys for the primary index (`o_idx_cmp`,
src/tableam/tree.c:880-948). -/
def pkEq (cls : Nat → Nat) (a b : List (Option Nat)) : Bool :=
  a.map (Option.map cls) == b.map (Option.map cls)

/-- Statements: each deals with one row; rows to update or delete are named by their
primary key. -/
inductive Op
  | insert (cols : List (Option Nat))
  | update (key : List (Option Nat)) (cols : List (Option Nat))
  | delete (key : List (Option Nat))

/-- INSERT: `o_tbl_insert` (src/tableam/operations.c:417-507), which ends in an error if
the primary key is there, then `aminsert` of each index whose predicate holds. -/
def doInsert (cls : Nat → Nat) (t : Table) (ds : List Def) (db : DB) (r : Row) : Option DB :=
  if db.rows.any (fun r' => pkEq cls (pkOf t r) (pkOf t r')) then none
  else
    ((ds.zip db.trees).mapM fun (p : Def × List Tup) =>
      if p.1.pred r then aminsert cls t p.1 r p.2 else some p.2).map fun ts =>
        { rows := r :: db.rows, trees := ts, next := db.next + 1 }

/-- UPDATE of a row that was found: `o_tbl_update` (src/tableam/operations.c:1683-1940),
which overwrites the row if the bytes of its primary key stay the same
(`o_tbl_indices_overwrite`, 2157-2226) and else deletes it and inserts the new one
(`o_tbl_indices_reinsert`, 2228-2314; an error if the new key is there); then `amupdate`
of each index. -/
def doUpdate (cls : Nat → Nat) (t : Table) (ds : List Def) (db : DB) (old new : Row) :
    Option DB :=
  let rest := db.rows.eraseP (fun r' => pkEq cls (pkOf t old) (pkOf t r'))
  if pkOf t old != pkOf t new &&
      rest.any (fun r' => pkEq cls (pkOf t new) (pkOf t r')) then none
  else
    ((ds.zip db.trees).mapM fun (p : Def × List Tup) => amupdate cls t p.1 old new p.2).map
      fun ts => { db with rows := new :: rest, trees := ts }

/-- DELETE of a row that was found: `o_tbl_delete` (src/tableam/operations.c:1942-2010),
then `amdelete` of each index whose predicate holds. -/
def doDelete (cls : Nat → Nat) (t : Table) (ds : List Def) (db : DB) (old : Row) : DB :=
  { db with
    rows := db.rows.eraseP (fun r' => pkEq cls (pkOf t old) (pkOf t r'))
    trees := (ds.zip db.trees).map fun p =>
      if p.1.pred old then amdelete cls t p.1 old p.2 else p.2 }

/-- The row of a primary key: the search in the primary index. -/
def findRow (cls : Nat → Nat) (t : Table) (db : DB) (key : List (Option Nat)) : Option Row :=
  db.rows.find? (fun r => pkEq cls key (pkOf t r))

/-- One statement; `none` if it ends in an error.  A new row gets the next `ctid`
(src/tableam/operations.c:454-461), an updated one keeps its own
(src/tableam/operations.c:1706-1711). -/
def stepOp (cls : Nat → Nat) (t : Table) (ds : List Def) (db : DB) : Op → Option DB
  | .insert cols => doInsert cls t ds db { cols, ctid := db.next }
  | .update key cols =>
    match findRow cls t db key with
    | some old => doUpdate cls t ds db old { cols, ctid := old.ctid }
    | none => some db
  | .delete key =>
    match findRow cls t db key with
    | some old => some (doDelete cls t ds db old)
    | none => some db

/-- Statements one after the other, from the empty table; a statement which ends in an
error changes nothing. -/
def run (cls : Nat → Nat) (t : Table) (ds : List Def) (ops : List Op) : DB :=
  ops.foldl (fun db op => (stepOp cls t ds db op).getD db) { trees := ds.map fun _ => [] }

/-- The values of the declared columns in an entry, as an index scan sees them: for its
conditions and, if it is an index-only scan, for its result
(src/catalog/o_indices.c:1205-1271). -/
def entryCols (ix : OIndex) (e : Tup) : List (Option Nat) := ix.pos.map fun p => e.getD p none

/-- The primary key in an entry (`make_key_from_secondary_slot`,
src/tuple/slot.c:167-198). -/
def entryPk (ix : OIndex) (e : Tup) : List (Option Nat) := ix.pkAtt.map fun p => e.getD p none

/-- An index scan for the entries whose columns meet the condition `q`: for each of them
the row is taken from the primary index by its key (src/tableam/index_scan.c:1013-1040;
an entry without a row is passed over). -/
def scan (cls : Nat → Nat) (t : Table) (d : Def) (db : DB) (es : List Tup)
    (q : List (Option Nat) → Bool) : List Row :=
  (es.filter fun e => q (entryCols (makeIndex t d) e)).filterMap fun e =>
    findRow cls t db (entryPk (makeIndex t d) e)

/-- An index-only scan for the same entries: the values come from the entries
(`fill_itup`, src/indexam/handler.c:1929-2115). -/
def scanOnly (t : Table) (d : Def) (es : List Tup) (q : List (Option Nat) → Bool) :
    List (List (Option Nat)) :=
  (es.map (entryCols (makeIndex t d))).filter q

end Verif.IndexAm
