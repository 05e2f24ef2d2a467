/-!
# Values stored out of line (TOAST)

Model of how large values of a table are compressed, moved out of the row into the table's
TOAST tree, replaced, removed and read back: `tts_orioledb_toast`,
`tts_orioledb_insert_toast_values`, `tts_orioledb_remove_toast_values`,
`tts_orioledb_update_toast_values` (`src/tuple/slot.c`), the chunks (`src/tuple/toast.c`), and
the order in which INSERT, UPDATE and DELETE call them (`src/tableam/operations.c`).

Left out: concurrency, and transactions of more than one statement (`o_toast_needs_undo` and
`tableVersionCallback`, which choose between versions of a chunk); the alignment of fields and
one-byte headers in `o_tuple_compute_data_size`; expanded and indirect values; bulk loading
(`generic_toast_sort_add`); WAL; the secondary indexes (C73).  A statement that ends in an error
leaves the table as it was.
-/

namespace Verif.Toast

/-- Bytes of a value. -/
abbrev Bytes := List Nat

/-- How a column is stored: `TYPSTORAGE_EXTENDED`, `TYPSTORAGE_EXTERNAL` or
`TYPSTORAGE_MAIN`; columns with `TYPSTORAGE_PLAIN`, of fixed length or of the primary key are
not in `toastable` (`o_find_toastable_attrs`, src/tableam/descr.c:1856-1895). -/
inductive Mode
  | extended
  | external
  | main
  deriving DecidableEq, Repr

/-- A table as far as large values are concerned.  Keys are numbers; two keys with the same
`cls` are equal for the comparison of the primary key, although their bytes may differ. -/
structure Cfg where
  /-- the columns that may be toasted (src/tableam/descr.c:1856-1895) -/
  modes : List Mode
  /-- `O_BTREE_MAX_TUPLE_SIZE` (include/btree/page_contents.h:327) -/
  maxTuple : Nat
  /-- size of the tuple's header and of the other columns (simplified: the same for all rows) -/
  base : Nat
  /-- size of a pointer (include/tuple/toast.h; simplified: the same for all keys) -/
  ptr : Nat
  /-- the comparison of primary keys -/
  cls : Nat → Nat
  /-- `tableGetMaxChunkSize` (src/tuple/toast.c:258-290): depends on the size of the key -/
  chunk : Nat → Nat
  /-- `toast_compress_datum` of PostgreSQL, called in src/tuple/slot.c:1434: `none` if the value
  does not get smaller -/
  pack : Bytes → Option Bytes
  /-- `toast_decompress_datum` of PostgreSQL, called in src/tuple/toast.c:1185 -/
  unpack : Bytes → Bytes

/-- A value with a four-byte header: compressed or not, and its data. -/
structure Flat where
  comp : Bool
  bytes : Bytes
  deriving DecidableEq, Repr

/-- The value as it lies in memory: header, then data.  The header's flag says whether the data
is compressed (`VARATT_IS_COMPRESSED`); the length in it is left out. -/
def Flat.image (f : Flat) : Bytes :=
  [cond f.comp 1 0, 0, 0, 0] ++ f.bytes

/-- The value that lies in memory as these bytes. -/
def ofImage (b : Bytes) : Flat :=
  ⟨b.headD 0 == 1, b.drop 4⟩

/-- The value itself, decompressed: `toast_decompress_datum` in `o_get_raw_value`
(src/tuple/toast.c:1159-1193). -/
def raw (cfg : Cfg) (f : Flat) : Bytes :=
  if f.comp then cfg.unpack f.bytes else f.bytes

/-- `OToastExternal` (made by `create_o_toast_external`, src/tuple/toast.c:1239-1271): the key
of the row, the column, `raw_size` and `toasted_size`.  Simplified: the table and the snapshot
(`csn`) are left out. -/
structure Ptr where
  key : Nat
  att : Nat
  rawSize : Nat
  size : Nat
  deriving DecidableEq, Repr

/-- A value in a slot: null, in memory, a pointer to the TOAST tree of this table
(`VARATT_IS_EXTERNAL_ORIOLEDB`), or a pointer to the TOAST table of a heap table
(`VARATT_IS_EXTERNAL_ONDISK`; simplified: the value behind it). -/
inductive Datum
  | null
  | flat (f : Flat)
  | ext (p : Ptr)
  | heap (f : Flat)
  deriving DecidableEq, Repr

/-- A field of a stored tuple: null, a value, or an `OToastValue` with `raw_size` and
`toasted_size` (include/tuple/toast.h:54-64).  `pointer` is a pointer copied into the tuple
(src/tuple/format.c:747-752): its first byte is that of an `OToastValue`
(include/tableam/toast.h:47-56), so that readers take it for one. -/
inductive Cell
  | null
  | inline (f : Flat)
  | toasted (rawSize size : Nat)
  | pointer
  deriving DecidableEq, Repr

/-! ### The TOAST tree -/

/-- Key of a chunk: the row's key (as compared), the column, the chunk's number
(`o_toast_cmp`, src/tuple/toast.c:107-198). -/
structure CKey where
  cls : Nat
  att : Nat
  num : Nat
  deriving DecidableEq, Repr

/-- The order of chunks: `o_toast_cmp` (src/tuple/toast.c:107-198). -/
def CKey.lt (a b : CKey) : Bool :=
  a.cls < b.cls || (a.cls == b.cls && (a.att < b.att || (a.att == b.att && a.num < b.num)))

/-- The TOAST tree: the chunks in order (C66 and C69 are about the tree itself). -/
abbrev Tree := List (CKey × Bytes)

/-- The tree after a new chunk was inserted (`o_btree_modify`, src/tuple/toast.c:465-469). -/
def put (k : CKey) (b : Bytes) : Tree → Tree
  | [] => [(k, b)]
  | e :: t => if k.lt e.1 then (k, b) :: e :: t else e :: put k b t

/-- The chunks of one value, in order: the iterator from `key` to `getNextKey`
(src/tuple/toast.c:678-681, 762-765). -/
def sel (c a : Nat) (t : Tree) : Tree :=
  t.filter fun e => e.1.cls == c && e.1.att == a

/-- `generic_toast_insert_optional_wal` (src/tuple/toast.c:433-494) from chunk `n` on; `none`
if a chunk with that key is there.  `fuel` bounds the number of chunks. -/
def insertGo (m c a : Nat) : (fuel : Nat) → (n : Nat) → Bytes → Tree → Option Tree
  | 0, _, _, t => some t
  | fuel + 1, n, data, t =>
    if data.isEmpty then some t
    else if t.any (fun e => e.1 == ⟨c, a, n⟩) then none
    else insertGo m c a fuel (n + 1) (data.drop m) (put ⟨c, a, n⟩ (data.take m) t)

/-- `o_toast_insert` (src/tuple/toast.c:947-968). -/
def toastInsert (cfg : Cfg) (key a : Nat) (data : Bytes) (t : Tree) : Option Tree :=
  insertGo (cfg.chunk key) (cfg.cls key) a data.length 0 data t

/-- `generic_toast_delete_optional_wal` (src/tuple/toast.c:662-742) called by `o_toast_delete`
(989-1010): `none` if there was no chunk. -/
def toastDelete (cfg : Cfg) (key a : Nat) (t : Tree) : Option Tree :=
  if (sel (cfg.cls key) a t).isEmpty then none
  else some (t.filter fun e => !(e.1.cls == cfg.cls key && e.1.att == a))

/-- The loop of `generic_toast_get` (src/tuple/toast.c:772-813): `acc` is what has been copied;
`none` if the size is not the expected one. -/
def getGo (m size : Nat) : List Bytes → Bytes → Option Bytes
  | [], acc => if acc.length = size then some acc else none
  | b :: bs, acc =>
    if size < acc.length + b.length then none
    else if b.length < m then
      (if (acc ++ b).length = size then some (acc ++ b) else none)
    else getGo m size bs (acc ++ b)

/-- `o_detoast` (src/tuple/toast.c:222-248), `o_toast_get` (1012-1031), `generic_toast_get`
(751-814). -/
def detoast (cfg : Cfg) (t : Tree) (p : Ptr) : Option Flat :=
  (getGo (cfg.chunk p.key) p.size ((sel (cfg.cls p.key) p.att t).map (·.2)) []).map ofImage

/-- `o_get_src_value` (src/tuple/toast.c:1195-1219); `none` for a null, or if `o_detoast`
returns NULL, which the code takes for a value (a crash). -/
def srcValue (cfg : Cfg) (t : Tree) : Datum → Option Flat
  | .null => none
  | .flat f => some f
  | .heap f => some f
  | .ext p => detoast cfg t p

/-- `o_get_raw_size` (include/tuple/toast.h:172-190). -/
def rawSize (cfg : Cfg) : Datum → Nat
  | .null => 0
  | .flat f => (raw cfg f).length
  | .heap f => (raw cfg f).length
  | .ext p => p.rawSize

/-- `o_get_src_size` (include/tuple/toast.h:193-210). -/
def srcSize : Datum → Nat
  | .null => 0
  | .flat f => f.image.length
  | .heap f => f.image.length
  | .ext p => p.size

/-! ### Choosing what to compress and what to move -/

/-- `ORIOLEDB_TO_TOAST_OFF`, `_ON`, `_COMPRESSION_TRIED` (include/tuple/slot.h:53-55). -/
inductive Flag
  | off
  | on
  | tried
  deriving DecidableEq, Repr

/-- A toastable column of a slot: how it is stored, its value, and `to_toast`. -/
structure Col where
  mode : Mode
  d : Datum
  flag : Flag
  deriving DecidableEq, Repr

/-- What a column adds to the size of the tuple: `o_tuple_compute_data_size`
(src/tuple/format.c:424-496); `sizeof(OToastValue)` is 12 (include/tuple/toast.h:54-64).  As in
the code (454-462), `ON` is looked at before null. -/
def cost (cfg : Cfg) (c : Col) : Nat :=
  if c.flag = .on then 12
  else match c.d with
    | .null => 0
    | .flat f => f.image.length
    | .ext _ => cfg.ptr
    | .heap _ => cfg.ptr

/-- `expected_tuple_len` (src/tuple/slot.c:1248-1274). -/
def tupleLen (cfg : Cfg) (cs : List Col) : Nat :=
  cfg.base + (cs.map (cost cfg)).sum

/-- `can_be_stored_in_index` (src/tuple/slot.c:1280-1290). -/
def fits (cfg : Cfg) (cs : List Col) : Bool :=
  tupleLen cfg cs ≤ cfg.maxTuple

/-- `VARATT_IS_EXTERNAL_ONDISK || VARATT_IS_EXTERNAL_ORIOLEDB` (src/tuple/slot.c:1328-1329,
1373-1374). -/
def Datum.isPtr : Datum → Bool
  | .ext _ => true
  | .heap _ => true
  | _ => false

/-- `VARATT_IS_COMPRESSED`, as used in src/tuple/slot.c:1402 and 1425. -/
def Datum.isComp : Datum → Bool
  | .flat f => f.comp
  | _ => false

/-- `VARSIZE_ANY` (src/tuple/slot.c:1405, 1497). -/
def varSize (cfg : Cfg) : Datum → Nat
  | .null => 0
  | .flat f => f.image.length
  | _ => cfg.ptr

/-- The search for the largest value among the candidates `p` (src/tuple/slot.c:1391-1413,
1480-1503): the number of the column. -/
def pickGo (cfg : Cfg) (p : Col → Bool) : List Col → Nat → Nat → Option Nat → Option Nat
  | [], _, _, best => best
  | c :: cs, i, max, best =>
    if p c && max < varSize cfg c.d then pickGo cfg p cs (i + 1) (varSize cfg c.d) (some i)
    else pickGo cfg p cs (i + 1) max best

/-- Candidates of the first loop: not null, not processed, not a compressed column with
`STORAGE MAIN` (src/tuple/slot.c:1394-1403). -/
def cand1 (c : Col) : Bool :=
  c.d != .null && c.flag == .off && !(c.mode == .main && c.d.isComp)

/-- Candidates of the second loop: not null, not yet moved, `STORAGE MAIN`
(src/tuple/slot.c:1484-1495). -/
def cand2 (c : Col) : Bool :=
  c.d != .null && c.flag != .on && c.mode == .main

/-- What the first loop does with the column it found (src/tuple/slot.c:1421-1465). -/
def step1 (cfg : Cfg) (c : Col) : Col :=
  if c.d.isComp || c.mode == .external then { c with flag := .on }
  else match c.d with
    | .flat f =>
      match cfg.pack f.bytes with
      | some b => { c with d := .flat ⟨true, b⟩ }
      | none => if c.mode == .main then { c with flag := .tried } else { c with flag := .on }
    | _ => { c with flag := .on }

/-- The first loop (src/tuple/slot.c:1381-1466); `to_toastn` is the number of columns with a
flag.  `fuel` bounds the number of rounds. -/
def loop1 (cfg : Cfg) : (fuel : Nat) → List Col → List Col
  | 0, cs => cs
  | fuel + 1, cs =>
    if (cs.filter (·.flag != .off)).length < cs.length && !fits cfg cs then
      match pickGo cfg cand1 cs 0 0 none with
      | none => cs
      | some i => loop1 cfg fuel (cs.modify i (step1 cfg))
    else cs

/-- The second loop (src/tuple/slot.c:1474-1510). -/
def loop2 (cfg : Cfg) : (fuel : Nat) → List Col → List Col
  | 0, cs => cs
  | fuel + 1, cs =>
    if fits cfg cs then cs
    else match pickGo cfg cand2 cs 0 0 none with
      | none => cs
      | some i => loop2 cfg fuel (cs.modify i fun c => { c with flag := .on })

/-- `tts_orioledb_toast` (src/tuple/slot.c:1296-1522); the given flags are `OFF`. -/
def toastCols (cfg : Cfg) (cs : List Col) : List Col :=
  if !cs.any (·.d.isPtr) && fits cfg cs then cs
  else if !fits cfg (cs.map fun c => { c with flag := .on }) then cs
  else
    let cs1 := cs.map fun c => if c.d.isPtr then { c with flag := .on } else c
    let cs2 := loop1 cfg (2 * cs.length + 1) cs1
    let cs3 := loop2 cfg (cs.length + 1) cs2
    cs3.map fun c => if c.flag = .tried then { c with flag := .off } else c

/-- The field of the tuple that is formed: `o_tuple_fill` (src/tuple/format.c:652-752). -/
def cellOf (cfg : Cfg) (c : Col) : Cell :=
  if c.flag = .on then .toasted (rawSize cfg c.d) (srcSize c.d)
  else match c.d with
    | .null => .null
    | .flat f => .inline f
    | _ => .pointer

/-! ### The table -/

/-- A row of the primary index: its key and its toastable columns. -/
structure Row where
  key : Nat
  cells : List Cell
  deriving DecidableEq, Repr

/-- The table: its primary index (in no particular order) and its TOAST tree. -/
structure Db where
  rows : List Row
  tree : Tree
  deriving DecidableEq, Repr

/-- How a step can end. -/
inductive Out (α : Type)
  | ok (a : α)
  | error
  | crash
  deriving DecidableEq, Repr

/-- A column of a row as it is put into a slot (src/tuple/slot.c:448-493); `none` if the field
is no value of the column. -/
def slotDatum (key att : Nat) : Cell → Option Datum
  | .null => some .null
  | .inline f => some (.flat f)
  | .toasted r s => some (.ext ⟨key, att, r, s⟩)
  | .pointer => none

/-- What a statement gives for a column: null, a value (compressed or not), a pointer to a heap
table's value, or a column of a row of this table (then a value out of line is given as a
pointer). -/
inductive Src
  | null
  | value (f : Flat)
  | heap (f : Flat)
  | copy (key att : Nat)
  deriving DecidableEq, Repr

/-- The row with this key, as `o_btree_find_tuple_by_key` finds it. -/
def findRow (cfg : Cfg) (k : Nat) (rows : List Row) : Option Row :=
  rows.find? fun r => cfg.cls r.key == cfg.cls k

/-- What the executor puts into the slot for a column (PostgreSQL's executor; a row that is
not there gives null).  `none`: a crash. -/
def srcDatum (cfg : Cfg) (rows : List Row) : Src → Option Datum
  | .null => some .null
  | .value f => some (.flat f)
  | .heap f => some (.heap f)
  | .copy k a =>
    match findRow cfg k rows with
    | none => some .null
    | some r =>
      match r.cells[a]? with
      | none => some .null
      | some c => slotDatum r.key a c

/-- `tts_orioledb_insert_toast_values` (src/tuple/slot.c:1629-1677) from column `i` on; values
are read as they were before the statement (`snap`). -/
def insertValues (cfg : Cfg) (snap : Tree) (key : Nat) : Nat → List Col → Tree → Out Tree
  | _, [], t => .ok t
  | i, c :: cs, t =>
    if c.flag = .on then
      match srcValue cfg snap c.d with
      | none => .crash
      | some f =>
        match toastInsert cfg key i f.image t with
        | none => .error
        | some t' => insertValues cfg snap key (i + 1) cs t'
    else insertValues cfg snap key (i + 1) cs t

/-- `tts_orioledb_remove_toast_values` (src/tuple/slot.c:1724-1771) from column `i` on. -/
def removeValues (cfg : Cfg) (key : Nat) : Nat → List Cell → Tree → Out Tree
  | _, [], t => .ok t
  | i, c :: cs, t =>
    match c with
    | .toasted _ _ =>
      match toastDelete cfg key i t with
      | none => .error
      | some t' => removeValues cfg key (i + 1) cs t'
    | _ => removeValues cfg key (i + 1) cs t

/-- Replacing one value in `tts_orioledb_update_toast_values` (src/tuple/slot.c:1942-1984):
`o_toast_delete`, then `o_toast_insert`. -/
def replaceValue (cfg : Cfg) (snap : Tree) (key i : Nat) (del : Bool) (new : Option Datum)
    (t : Tree) : Out Tree :=
  match (if del then toastDelete cfg key i t else some t) with
  | none => .error
  | some t1 =>
    match new with
    | none => .ok t1
    | some d =>
      match srcValue cfg snap d with
      | none => .crash
      | some f =>
        match toastInsert cfg key i f.image t1 with
        | none => .error
        | some t2 => .ok t2

/-- One column in `tts_orioledb_update_toast_values` (src/tuple/slot.c:1850-1984).  Equal
pointers: `o_toast_equal` (src/tuple/toast.c:1100-1155).  Otherwise the sizes, then the values
themselves are compared (1903-1936); the old value is kept if they are equal. -/
def updateValue (cfg : Cfg) (snap : Tree) (key i : Nat) (old : Cell) (c : Col) (t : Tree) :
    Out Tree :=
  match old with
  | .toasted r s =>
    if c.flag = .on then
      if c.d = .ext ⟨key, i, r, s⟩ then .ok t
      else if rawSize cfg c.d = r then
        match srcValue cfg snap c.d, srcValue cfg snap (.ext ⟨key, i, r, s⟩) with
        | some f, some g =>
          if raw cfg f = raw cfg g then .ok t
          else replaceValue cfg snap key i true (some c.d) t
        | _, _ => .crash
      else replaceValue cfg snap key i true (some c.d) t
    else replaceValue cfg snap key i true none t
  | _ => if c.flag = .on then replaceValue cfg snap key i false (some c.d) t else .ok t

/-- `tts_orioledb_update_toast_values` (src/tuple/slot.c:1773-1988) from column `i` on. -/
def updateValues (cfg : Cfg) (snap : Tree) (key : Nat) :
    Nat → List Cell → List Col → Tree → Out Tree
  | i, o :: os, c :: cs, t =>
    match updateValue cfg snap key i o c t with
    | .ok t' => updateValues cfg snap key (i + 1) os cs t'
    | .error => .error
    | .crash => .crash
  | _, _, _, t => .ok t

/-- A statement for one row. -/
inductive Op
  | insert (key : Nat) (srcs : List Src)
  | update (key newKey : Nat) (srcs : List Src)
  | delete (key : Nat)
  deriving DecidableEq, Repr

/-- The slot of a statement: one source for each toastable column (`List.zipWith` with the
columns' storage), flags `OFF`; `none`: a crash. -/
def slotOf (cfg : Cfg) (rows : List Row) (srcs : List Src) : Option (List Col) :=
  (srcs.mapM (srcDatum cfg rows)).map fun ds =>
    List.zipWith (fun m d => ⟨m, d, .off⟩) cfg.modes ds

/-- `o_tbl_insert` (src/tableam/operations.c:417-507): toast, form the tuple, check its size,
insert it into the primary index, then insert the chunks (a failure is reported as an error by
`o_toast_insert_values`). -/
def doInsert (cfg : Cfg) (db : Db) (key : Nat) (cs0 : List Col) : Out Db :=
  let cs := toastCols cfg cs0
  if !fits cfg cs then .error
  else if (findRow cfg key db.rows).isSome then .error
  else match insertValues cfg db.tree key 0 cs db.tree with
    | .ok t => .ok ⟨⟨key, cs.map (cellOf cfg)⟩ :: db.rows, t⟩
    | .error => .error
    | .crash => .crash

/-- The rows without the given one. -/
def without (cfg : Cfg) (k : Nat) (rows : List Row) : List Row :=
  rows.filter fun r => !(cfg.cls r.key == cfg.cls k)

/-- `o_tbl_update` (src/tableam/operations.c:1836-1940) for a row that is there.
`is_keys_eq` (3108-3141) compares the bytes of the keys: if they are equal, the row is
overwritten and its values replaced (1846-1850, 1888-1890), otherwise the old row is deleted, the
new one inserted, then the new chunks are inserted and the old ones removed (1851-1855,
1911-1918). -/
def doUpdate (cfg : Cfg) (db : Db) (old : Row) (newKey : Nat) (cs0 : List Col) : Out Db :=
  let cs := toastCols cfg cs0
  let new : Row := ⟨newKey, cs.map (cellOf cfg)⟩
  let rest := without cfg old.key db.rows
  if !fits cfg cs then .error
  else if old.cells.any (· == .pointer) then .crash
  else if old.key = newKey then
    match updateValues cfg db.tree old.key 0 old.cells cs db.tree with
    | .ok t => .ok ⟨new :: rest, t⟩
    | .error => .error
    | .crash => .crash
  else if (findRow cfg newKey rest).isSome then .error
  else match insertValues cfg db.tree newKey 0 cs db.tree with
    | .ok t =>
      match removeValues cfg old.key 0 old.cells t with
      | .ok t' => .ok ⟨new :: rest, t'⟩
      | .error => .error
      | .crash => .crash
    | .error => .error
    | .crash => .crash

/-- `o_tbl_delete` (src/tableam/operations.c:1942-2011) for a row that is there. -/
def doDelete (cfg : Cfg) (db : Db) (old : Row) : Out Db :=
  if old.cells.any (· == .pointer) then .crash
  else match removeValues cfg old.key 0 old.cells db.tree with
    | .ok t => .ok ⟨without cfg old.key db.rows, t⟩
    | .error => .error
    | .crash => .crash

/-- A statement.  UPDATE and DELETE of a row that is not there do nothing; a statement that
gives a wrong number of columns is an error. -/
def doOp (cfg : Cfg) (db : Db) : Op → Out Db
  | .insert k srcs =>
    if srcs.length ≠ cfg.modes.length then .error
    else match slotOf cfg db.rows srcs with
      | none => .crash
      | some cs => doInsert cfg db k cs
  | .update k k' srcs =>
    match findRow cfg k db.rows with
    | none => .ok db
    | some old =>
      if srcs.length ≠ cfg.modes.length then .error
      else match slotOf cfg db.rows srcs with
        | none => .crash
        | some cs => doUpdate cfg db old k' cs
  | .delete k =>
    match findRow cfg k db.rows with
    | none => .ok db
    | some old => doDelete cfg db old

/-- A statement, with errors rolled back (`none`: a crash). -/
def step (cfg : Cfg) (db : Db) (op : Op) : Option Db :=
  match doOp cfg db op with
  | .ok db' => some db'
  | .error => some db
  | .crash => none

/-- Any statements, one after the other, on an empty table. -/
def runFrom (cfg : Cfg) : Db → List Op → Option Db
  | db, [] => some db
  | db, op :: ops =>
    match step cfg db op with
    | none => none
    | some db' => runFrom cfg db' ops

/-- Any statements on an empty table. -/
def run (cfg : Cfg) (ops : List Op) : Option Db := runFrom cfg ⟨[], []⟩ ops

/-- Reading a column: `slot_getattr`, then `o_get_raw_value` (src/tuple/toast.c:1158-1193);
`none`: no value can be read. -/
def readCell (cfg : Cfg) (t : Tree) (key att : Nat) : Cell → Option (Option Bytes)
  | .null => some none
  | .inline f => some (some (raw cfg f))
  | .toasted r s => (detoast cfg t ⟨key, att, r, s⟩).map fun f => some (raw cfg f)
  | .pointer => none

/-- Reading the columns of a row from column `i` on (src/tuple/slot.c:448-493). -/
def readCells (cfg : Cfg) (t : Tree) (key : Nat) : Nat → List Cell → Option (List (Option Bytes))
  | _, [] => some []
  | i, c :: cs =>
    match readCell cfg t key i c, readCells cfg t key (i + 1) cs with
    | some v, some vs => some (v :: vs)
    | _, _ => none

/-- Reading the whole table: each row's key and values; `none` if some value cannot be read
(`SELECT *`). -/
def readRows (cfg : Cfg) (t : Tree) : List Row → Option (List (Nat × List (Option Bytes)))
  | [] => some []
  | r :: rs =>
    match readCells cfg t r.key 0 r.cells, readRows cfg t rs with
    | some vs, some l => some ((r.key, vs) :: l)
    | _, _ => none

/-- Reading the whole table. -/
def readDb (cfg : Cfg) (db : Db) : Option (List (Nat × List (Option Bytes))) :=
  readRows cfg db.tree db.rows

end Verif.Toast
