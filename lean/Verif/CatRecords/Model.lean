/-!
# The records of tables and indexes in the system trees

`serialize_o_table` / `deserialize_o_table` (src/catalog/o_tables.c:2267-2590) and
`serialize_o_index` / `deserialize_o_index` (src/catalog/o_indices.c:757-1099): how an
`OTable` or an `OIndex` becomes the byte string stored in a system tree and how it is read
back, by the same or by another PostgreSQL major version.

The parts of the C structures that are copied with one `memcpy` are opaque byte strings
here; the model looks into them only where the code does (counts, type, tablespace,
versions).  A node tree stands for the text `nodeToString` gives for it.
-/

namespace Verif.CatRecords

abbrev Bytes := List UInt8

/-- A little-endian number of `w` bytes: what `appendBinaryStringInfo(str, &x, sizeof x)`
appends on the supported platforms (o_indices.c:762, 841, 842). -/
def le : Nat → Nat → Bytes
  | 0, _ => []
  | w + 1, v => UInt8.ofNat (v % 256) :: le w (v / 256)

/-- The number `memcpy(&x, ptr, sizeof x)` reads (o_indices.c:800, 902, 904). -/
def unle : Bytes → Nat
  | [] => 0
  | b :: s => b.toNat + 256 * unle s

/-- A member of a copied structure: `n` bytes at offset `off` (o_tables.c:2360, 2399-2401, 2514). -/
def slice (s : Bytes) (off n : Nat) : Bytes := (s.drop off).take n

/-- Writing a member of a copied structure (o_tables.c:2396, 2581). -/
def patch (s : Bytes) (off : Nat) (b : Bytes) : Bytes := s.take off ++ b ++ s.drop (off + b.length)

/-- Sizes and offsets given by the compiler to the structures of
include/catalog/o_tables.h:30-133 and include/catalog/o_indices.h:54-100.  `t…` are offsets
in `OTable`, `x…` in `OTableIndex`, `o…` offsets in `OIndex` counted from `tableOids`. -/
structure Lay where
  /-- `sizeof(OTableField)` and the offset of `byval` -/
  field : Nat
  fByval : Nat
  /-- `sizeof(OTableIndexField)` -/
  ixField : Nat
  /-- `offsetof(OTable, indices)`, `oids.spcoid`, `nfields`, `nindices`, `data_version` -/
  tLen : Nat
  tSpc : Nat
  tNfields : Nat
  tNindices : Nat
  tVersion : Nat
  /-- `offsetof(OTableIndex, exprfields)`, `oids.spcoid`, `type`, `nkeyfields`, `nexprfields` -/
  xLen : Nat
  xSpc : Nat
  xType : Nat
  xNkey : Nat
  xNexpr : Nat
  /-- `offsetof(OIndex, leafTableFields) - offsetof(OIndex, tableOids)`, `data_version`,
  `nLeafFields`, `nKeyFields` -/
  oLen : Nat
  oVersion : Nat
  oNleaf : Nat
  oNkey : Nat

/-- The layout on x86-64, where `INDEX_MAX_KEYS` is 32 (o_tables.h:30-133,
o_indices.h:54-100, include/orioledb.h:273-281). -/
def x86 : Lay where
  field := 92
  fByval := 80
  ixField := 24
  tLen := 104
  tSpc := 12
  tNfields := 74
  tNindices := 78
  tVersion := 100
  xLen := 872
  xSpc := 76
  xType := 80
  xNkey := 94
  xNexpr := 864
  oLen := 184
  oVersion := 18
  oNleaf := 108
  oNkey := 114

/-- `ORIOLEDB_SYS_TREE_VERSION` (include/orioledb.h:102). -/
def sysTreeVersion : Nat := 1

/-- `oIndexExclusion` (include/orioledb.h:182). -/
def exclusion : Nat := 6

/-- The text `nodeToString` gives for a NULL node or an empty list, `<>`
(o_indices.c:854-864). -/
def nullNode : Bytes := [60, 62]

/-! ## Writing -/

/-- `o_serialize_string` (o_indices.c:757-765). -/
def serString : Option Bytes → Bytes
  | none => le 8 0
  | some s => le 8 (s.length + 1) ++ (s ++ [0])

/-- `o_serialize_node` (o_indices.c:832-845) in a server whose `PG_VERSION_NUM` is `ver`. -/
def serNode (ver : Nat) (txt : Bytes) : Bytes :=
  le 4 ver ++ (le 8 (txt.length + 1) ++ (txt ++ [0]))

/-- An index of a table: the bytes of `OTableIndex` before `exprfields`, the array
`exprfields`, and the members that are kept apart (include/catalog/o_tables.h:65-86). -/
structure TIndex where
  head : Bytes
  exprFields : Bytes
  predicate : Bytes
  predicateStr : Option Bytes
  expressions : Bytes
  exclops : Bytes
  immediate : UInt8
  deriving DecidableEq, Repr

/-- `serialize_o_table_index` (o_tables.c:2267-2288). -/
def serTIndex (L : Lay) (ver : Nat) (x : TIndex) : Bytes :=
  x.head ++ (x.exprFields ++ (serNode ver x.predicate ++ (serString x.predicateStr ++
    (serNode ver x.expressions ++ (slice x.head L.xSpc 4 ++
      ((if unle (slice x.head L.xType 4) = exclusion then x.exclops else []) ++ [x.immediate]))))))

/-- A value of a missing attribute: none, a datum passed by value (its eight bytes), or one
passed by reference (the bytes it takes, `datumGetSize`). -/
inductive Dat where
  | null
  | val (b : Bytes)
  | ref (b : Bytes)
  deriving DecidableEq, Repr

/-- `AttrMissing`: `am_present` and `am_value`.  The value means something only if it is
present; it is `Dat.null` otherwise, which is what `datumRestoreSafe` leaves
(o_tables.c:2446-2452). -/
structure Missing where
  present : UInt8
  value : Dat
  deriving DecidableEq, Repr

/-- `datumSerialize` of PostgreSQL, called at o_tables.c:2326-2330: the word -2 for NULL, -1
and the datum if `byval`, else the length and the bytes.  Simplified: expanded objects
are not distinguished, they are written flat. -/
def serDatum (byval : Bool) : Dat → Bytes
  | .null => le 4 0xFFFFFFFE
  | .val b => if byval then le 4 0xFFFFFFFF ++ b else le 4 b.length ++ b
  | .ref b => if byval then le 4 0xFFFFFFFF ++ b else le 4 b.length ++ b

/-- One turn of the loop at o_tables.c:2312-2332.  `am_value` is passed as NULL if
`am_present` is false. -/
def serMissing (byval : Bool) (m : Missing) : Bytes :=
  [m.present] ++ serDatum byval (if m.present = 0 then .null else m.value)

/-- `o_table->fields[i].byval` (o_tables.c:2320, 2328). -/
def byvalOf (L : Lay) (fields : Bytes) (i : Nat) : Bool :=
  (fields.getD (i * L.field + L.fByval) 0) ≠ 0

/-- The loop at o_tables.c:2312-2332 from field `i` on. -/
def serMissings (L : Lay) (fields : Bytes) : Nat → List Missing → Bytes
  | _, [] => []
  | i, m :: ms => serMissing (byvalOf L fields i) m ++ serMissings L fields (i + 1) ms

/-- A table: the bytes of `OTable` before `indices` and the arrays that are kept apart
(include/catalog/o_tables.h:91-146).  `version` and the memory context are not stored. -/
structure Table where
  head : Bytes
  indices : List TIndex
  fields : Bytes
  missing : List Missing
  deriving DecidableEq, Repr

/-- The loop over the indexes at o_tables.c:2305-2308. -/
def serTIndices (L : Lay) (ver : Nat) : List TIndex → Bytes
  | [] => []
  | x :: xs => serTIndex L ver x ++ serTIndices L ver xs

/-- `serialize_o_table` (o_tables.c:2290-2338); `none` is the FATAL error at 2297-2300. -/
def serTable (L : Lay) (ver : Nat) (t : Table) : Option Bytes :=
  if unle (slice t.head L.tVersion 2) ≠ sysTreeVersion then none else
  some (t.head ++ (serTIndices L ver t.indices ++ (t.fields ++
    (serMissings L t.fields 0 t.missing ++ slice t.head L.tSpc 4))))

/-- The key of an index record; it is not part of the record (`OIndexChunkKey`,
o_indices.c:979-981).  `oids` is opaque. -/
structure Key where
  oids : Bytes
  type : Nat
  version : Nat
  deriving DecidableEq, Repr

/-- An index: the bytes of `OIndex` from `tableOids` to `leafTableFields`, the arrays, the
members that are kept apart and the state (include/catalog/o_indices.h:54-131). -/
structure Index where
  key : Key
  head : Bytes
  leafTableFields : Bytes
  leafFields : Bytes
  predicate : Bytes
  predicateStr : Option Bytes
  expressions : Bytes
  duplicates : Bytes
  exclops : Bytes
  immediate : UInt8
  state : UInt8
  deriving DecidableEq, Repr

/-- `OINDEX_STATE_VALID` (include/catalog/o_indices.h:40). -/
def stateValid : UInt8 := 0

/-- What `serialize_o_index` appends before the state byte (o_indices.c:933-948). -/
def serIndexBody (ver : Nat) (x : Index) : Bytes :=
  x.head ++ (x.leafTableFields ++ (x.leafFields ++ (serNode ver x.predicate ++
    (serString x.predicateStr ++ (serNode ver x.expressions ++ (serNode ver x.duplicates ++
      ((if x.key.type = exclusion then x.exclops else []) ++ [x.immediate])))))))

/-- `serialize_o_index` (o_indices.c:921-963); `none` is the FATAL error at 928-931. -/
def serIndex (L : Lay) (ver : Nat) (x : Index) : Option Bytes :=
  if unle (slice x.head L.oVersion 2) ≠ sysTreeVersion then none else
  some (serIndexBody ver x ++ [x.state])

/-! ## Reading -/

/-- A function that reads from the front of the data; `none` is `return false` or the jump to
`truncated`. -/
abbrev P (α : Type) := StateT Bytes Option α

/-- `if ((ptr - data) + len > length) return false; memcpy(…, ptr, len); ptr += len`
(o_tables.c:2351-2355, and every other place where something is copied). -/
def rd (n : Nat) : P Bytes := fun s => if s.length < n then none else some (s.take n, s.drop n)

/-- An array that only an exclusion constraint has (o_tables.c:2399-2410,
o_indices.c:1046-1060). -/
def rdIf (c : Bool) (n : Nat) : P Bytes := if c then rd n else pure []

/-- A byte string up to its first NUL byte: what the C functions take as the string at this
address (`stringToNode` and `strcmp` at o_indices.c:863, 910). -/
def cstr (s : Bytes) : Bytes := s.takeWhile (fun b => b ≠ 0)

/-- `o_deserialize_string_safe` (o_indices.c:793-815).  Simplified: a string without a NUL
byte within its length is taken up to its length; `serString` writes none. -/
def deString : P (Option Bytes) := do
  let n ← rd 8
  if unle n ≠ 0 then
    let s ← rd (unle n)
    pure (some (cstr s))
  else pure none

/-- `o_node_version_compatible` (o_indices.c:848-852). -/
def compatible (ver pgVersion : Nat) : Bool := pgVersion / 10000 = ver / 10000

/-- `o_node_str_is_empty` (o_indices.c:860-864). -/
def strIsEmpty (txt : Bytes) : Bool := txt = [] || txt = nullNode

/-- `o_deserialize_node_safe` (o_indices.c:894-919) in a server whose `PG_VERSION_NUM` is
`ver`.  The second result is true if it sets `o_node_deserialize_format_changed`.
Simplified: the text is taken up to its length if there is no NUL byte in it; `serNode`
writes none such. -/
def deNode (ver : Nat) : P (Bytes × Bool) := do
  let v ← rd 4
  let n ← rd 8
  let s ← rd (unle n)
  if compatible ver (unle v) then pure (cstr s, false)
  else pure (nullNode, !strIsEmpty (cstr s))

/-- `deserialize_o_table_index` (o_tables.c:2343-2423). -/
def deTIndex (L : Lay) (ver : Nat) : P (TIndex × Bool) := do
  let head ← rd L.xLen
  let ef ← rd (unle (slice head L.xNexpr 1) * L.field)
  let pred ← deNode ver
  let ps ← deString
  let ex ← deNode ver
  let spc ← rd 4
  let excl ← rdIf (unle (slice head L.xType 4) = exclusion) (4 * unle (slice head L.xNkey 1))
  let imm ← rd 1
  pure (⟨patch head L.xSpc spc, ef, pred.1, ps, ex.1, excl, imm.headD 0⟩, pred.2 || ex.2)

/-- The loop over the indexes (o_tables.c:2513-2523).  The flag
`o_node_deserialize_format_changed` is cleared before it and only ever set. -/
def deTIndices (L : Lay) (ver : Nat) : Nat → P (List TIndex × Bool)
  | 0 => pure ([], false)
  | n + 1 => do
    let x ← deTIndex L ver
    let xs ← deTIndices L ver n
    pure (x.1 :: xs.1, x.2 || xs.2)

/-- `datumRestoreSafe` (o_tables.c:2430-2482).  A negative length other than -1 and -2 fails
the assertion at 2472; that is `none` here. -/
def deDatum : P Dat := do
  let h ← rd 4
  if unle h = 0xFFFFFFFE then pure .null
  else if unle h = 0xFFFFFFFF then do
    let b ← rd 8
    pure (.val b)
  else if 0x80000000 ≤ unle h then failure
  else do
    let b ← rd (unle h)
    pure (.ref b)

/-- The loop over the missing attributes (o_tables.c:2553-2572). -/
def deMissings : Nat → P (List Missing)
  | 0 => pure []
  | n + 1 => do
    let p ← rd 1
    let v ← deDatum
    let ms ← deMissings n
    pure (⟨p.headD 0, v⟩ :: ms)

/-- What `deserialize_o_table` reads (o_tables.c:2488-2582). -/
def deTableBody (L : Lay) (ver : Nat) : P (Table × Bool) := do
  let head ← rd L.tLen
  let xs ← deTIndices L ver (unle (slice head L.tNindices 2))
  let fields ← rd (unle (slice head L.tNfields 2) * L.field)
  let ms ← deMissings (unle (slice head L.tNfields 2))
  let spc ← rd 4
  pure (⟨patch head L.tSpc spc, xs.1, fields, ms⟩, xs.2)

/-- `deserialize_o_table` (o_tables.c:2488-2590): the table and `refresh_exprs`, or NULL,
also if bytes are left over (2584-2588). -/
def deTable (L : Lay) (ver : Nat) (data : Bytes) : Option (Table × Bool) :=
  match deTableBody L ver data with
  | some (r, []) => some r
  | _ => none

/-- Results of `deserialize_o_index`: the index and `refresh_exprs`, NULL, or the FATAL error
about the version of the catalog. -/
inductive Res where
  | ok (x : Index) (refresh : Bool)
  | truncated
  | fatal
  deriving DecidableEq, Repr

/-- The part of `deserialize_o_index` after the check of the version and before the state
byte (o_indices.c:993-1066). -/
def deIndexBody (L : Lay) (ver : Nat) (key : Key) (head : Bytes) : P (Index × Bool) := do
  let ltf ← rd (unle (slice head L.oNleaf 2) * L.field)
  let lf ← rd (unle (slice head L.oNleaf 2) * L.ixField)
  let pred ← deNode ver
  let ps ← deString
  let ex ← deNode ver
  let dup ← deNode ver
  let excl ← rdIf (key.type = exclusion) (4 * unle (slice head L.oNkey 2))
  let imm ← rd 1
  pure (⟨key, head, ltf, lf, pred.1, ps, ex.1, dup.1, excl, imm.headD 0, stateValid⟩, pred.2 || ex.2 || dup.2)

/-- `deserialize_o_index` (o_indices.c:969-1099).  The state byte is read only if there is
one (1072-1083). -/
def deIndex (L : Lay) (ver : Nat) (key : Key) (data : Bytes) : Res :=
  match rd L.oLen data with
  | none => .truncated
  | some (head, s) =>
    if unle (slice head L.oVersion 2) ≠ sysTreeVersion then .fatal else
    match deIndexBody L ver key head s with
    | some (r, []) => .ok r.1 r.2
    | some (r, [b]) => .ok { r.1 with state := b } r.2
    | _ => .truncated

/-! ## Rewriting a record -/

/-- A table is read, its members are changed and it is written again: `o_tables_get`, a
change, `o_tables_update` (o_tables.c:1739-1766, for example at 1418-1491).
`serialize_o_table` does not look at `refresh_exprs`, which is not stored either
(include/catalog/o_tables.h:139-145). -/
def rewriteTable (L : Lay) (ver : Nat) (change : Table → Table) (data : Bytes) : Option Bytes :=
  (deTable L ver data).bind (fun r => serTable L ver (change r.1))

end Verif.CatRecords
