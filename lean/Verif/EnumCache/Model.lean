/-!
# The order of enum values in recovery: model

While WAL is replayed there is no access to `pg_enum`; the order of the values of an enum type is
read from a system cache of the extension.  Model of what fills the cache
(`o_enum_cache_add_all`), of what reads it (`o_load_enum_cache_data_hook`), and of the comparison in
PostgreSQL that uses the result.

One type of one database.  A label is a number, its place in the order of names.  A sort order is an
integer; `float4` values of `pg_enum` are never NaN.
-/

namespace Verif.EnumCache

/-- A row of `pg_enum` for the type: what `o_enum_cache_fill_entry` reads,
src/catalog/o_enum_cache.c:134-169. -/
structure Val where
  label : Nat
  oid : Nat
  order : Int
deriving DecidableEq, Repr

/-- An entry of the cache, `OEnum`: its key (the type is left out) and `OEnumData`,
src/catalog/o_enum_cache.c:163-164 and include/catalog/o_sys_cache.h:54-66. -/
structure Ent where
  label : Nat
  lsn : Nat
  oid : Nat
  order : Int
deriving DecidableEq, Repr

/-- A new entry at its place: by label, then by LSN
(`o_sys_cache_cmp`, src/catalog/o_sys_cache.c:2346-2394). -/
def insertEnt (e : Ent) : List Ent → List Ent
  | [] => [e]
  | x :: t =>
    if x.label < e.label ∨ (x.label = e.label ∧ x.lsn ≤ e.lsn) then x :: insertEnt e t
    else e :: x :: t

/-- `o_enum_cache_add_if_needed`, src/catalog/o_sys_cache.c:892-919: nothing is done if there is an
entry for the label, whatever it holds.  Entries marked as deleted are left out: only dropping the
type marks them (src/catalog/ddl.c:3643-3645). -/
def addOne (lsn : Nat) (tree : List Ent) (r : Val) : List Ent :=
  if tree.any fun e => decide (e.label = r.label) && decide (e.lsn ≤ lsn) then tree
  else insertEnt ⟨r.label, lsn, r.oid, r.order⟩ tree

/-- `o_enum_cache_add_all`, src/catalog/o_enum_cache.c:102-131: all rows of `pg_enum` for the type.
The other cache, by OID, is left out. -/
def addAll (lsn : Nat) (tree : List Ent) (cat : List Val) : List Ent := cat.foldl (addOne lsn) tree

/-- The cache after the type was looked at with the rows `cat` of `pg_enum` at some LSNs: for a table
that uses it (src/catalog/o_sys_cache.c:1524-1535) and by each ALTER TYPE
(src/catalog/ddl.c:4516-4540). -/
def runs (hist : List (Nat × List Val)) : List Ent :=
  hist.foldl (fun tree h => addAll h.1 tree h.2) []

/-- `EnumItem`, src/catalog/o_enum_cache.c:49-54. -/
structure Item where
  oid : Nat
  order : Int
deriving DecidableEq, Repr

/-- The loop over the entries of the type, which stops at one of a later LSN,
src/catalog/o_enum_cache.c:415-446. -/
def collect (lsn : Nat) : List Ent → List Item
  | [] => []
  | e :: t => if lsn < e.lsn then [] else ⟨e.oid, e.order⟩ :: collect lsn t

/-- One item at its place; for `qsort` below. -/
def insertItem (i : Item) : List Item → List Item
  | [] => [i]
  | x :: t => if x.oid < i.oid then x :: insertItem i t else i :: x :: t

/-- `qsort` with `enum_oid_cmp`, src/catalog/o_enum_cache.c:353-368 and 450-451; the order of items
with equal OIDs is not determined there. -/
def sortItems (l : List Item) : List Item := l.foldr insertItem []

/-- The inner loop: offsets of the items in order behind the first,
src/catalog/o_enum_cache.c:480-496. -/
def scan (start : Nat) (prev : Int) : List Item → List Nat
  | [] => []
  | i :: t =>
    if 8192 ≤ i.oid - start then []
    else if prev < i.order then (i.oid - start) :: scan start i.order t
    else scan start prev t

/-- The set of OIDs that are in order: base and offsets.  `size` is `bm_size`, 1 for no set,
src/catalog/o_enum_cache.c:465-467. -/
structure Sorted where
  base : Nat
  bits : List Nat
  size : Nat
deriving DecidableEq, Repr

/-- The outer loop, src/catalog/o_enum_cache.c:469-516. -/
def pick : List Item → Sorted → Sorted
  | a :: b :: t, best =>
    let bits := 0 :: scan a.oid a.order (b :: t)
    let best' := if best.size < bits.length then ⟨a.oid, bits, bits.length⟩ else best
    if (b :: t).length ≤ best'.size then best' else pick (b :: t) best'
  | _, best => best

/-- `TypeCacheEnumData`, src/catalog/o_enum_cache.c:56-63. -/
structure Data where
  sorted : Sorted
  items : List Item
deriving DecidableEq, Repr

/-- `o_load_enum_cache_data_hook`, src/catalog/o_enum_cache.c:373-536, at an LSN. -/
def load (lsn : Nat) (tree : List Ent) : Data :=
  let items := sortItems (collect lsn tree)
  ⟨pick items ⟨0, [], 1⟩, items⟩

/-- `enum_known_sorted` of PostgreSQL, by the fields of `TypeCacheEnumData` as
src/catalog/o_enum_cache.c:59-60 describes them. -/
def known (d : Data) (oid : Nat) : Bool :=
  decide (d.sorted.base ≤ oid) && decide (oid - d.sorted.base ∈ d.sorted.bits)

/-- `find_enumitem` of PostgreSQL on the items of src/catalog/o_enum_cache.c:62, a binary search by
OID; simplified to the first item of the OID. -/
def find (d : Data) (oid : Nat) : Option Item := d.items.find? fun i => decide (i.oid = oid)

/-- `compare_values_of_enum` of PostgreSQL on the data loaded (src/catalog/o_enum_cache.c:524-535):
`none` is the error "enum value not found in cache". -/
def compare (d : Data) (a b : Nat) : Option Ordering :=
  if a = b then some .eq
  else if known d a && known d b then some (if a < b then .lt else .gt)
  else
    match find d a, find d b with
    | some x, some y =>
      some (if x.order < y.order then .lt else if y.order < x.order then .gt else .eq)
    | _, _ => none

/-- `enum_cmp_internal` of PostgreSQL, the comparison function of enum types: even OIDs compare as
they are, all others by the data loaded (src/catalog/o_sys_cache.c:2735-2736 puts the hook in). -/
def enumCmp (d : Data) (a b : Nat) : Option Ordering :=
  if a = b then some .eq
  else if a % 2 = 0 ∧ b % 2 = 0 then some (if a < b then .lt else .gt)
  else compare d a b

end Verif.EnumCache
