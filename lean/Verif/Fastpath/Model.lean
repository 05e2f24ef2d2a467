/-!
# Search in the B-trees of tables and their indexes: model

How a look-up or an index scan gets from the conditions of a query to the rows: the range of keys
made of the conditions, the order of keys, the regular (binary) search in a page, the fast path
that searches pages of fixed-length keys without comparators, the descent to a leaf, and the scan
from there.

The trees are complete and at rest: no page is being split, and what a concurrent change of a page
makes the search do (start again) is not modelled.  Pages are lists of chunks of items, not bytes.
Keys of other types than those of the fast path, exclusion constraints, arrays (`= ANY`), row
comparisons, the skip scan of PostgreSQL 18 and versions of rows are not modelled.
-/

namespace Verif.Fastpath

/-! ## Values and their orders -/

/-- A non-null value of one of the types of `arraySearchDescs`, src/btree/fastpath.c:65-72:
integers and oids (`int`), block and offset of a `tid`, floating point numbers other than NaN
(`fl`, of which only the order matters here; both zeros are the same) and NaN. -/
inductive Val where
  | int (z : Int)
  | fl (q : Int)
  | nan
  | tid (b o : Nat)
deriving DecidableEq, Repr, Inhabited

/-- The types of `arraySearchDescs`, src/btree/fastpath.c:65-72. -/
inductive Ty where
  | oid | int4 | int8 | float4 | float8 | tid
deriving DecidableEq, Repr

/-- The values of a type (src/btree/fastpath.c:65-72). -/
def Val.hasTy : Ty → Val → Bool
  | .oid, .int _ | .int4, .int _ | .int8, .int _ => true
  | .float4, .fl _ | .float4, .nan | .float8, .fl _ | .float8, .nan => true
  | .tid, .tid _ _ => true
  | _, _ => false

/-- Three-way comparison of integers, as `btint4cmp` of PostgreSQL does it; not from the
source. -/
def icmp (a b : Int) : Int := if a < b then -1 else if b < a then 1 else 0

/-- Only used to compare values of different types, which does not happen in an index; not from
the source. -/
def Val.tag : Val → Int
  | .int _ => 0
  | .fl _ => 1
  | .nan => 2
  | .tid _ _ => 3

/-- The comparison functions of PostgreSQL for these types, called by `o_call_comparator`
(src/tableam/tree.c:599-614, 697).  Floating point: NaN equals NaN and is above all numbers
(`float8_cmp_internal` of PostgreSQL). -/
def pgCmp : Val → Val → Int
  | .int a, .int b => icmp a b
  | .fl a, .fl b => icmp a b
  | .fl _, .nan => -1
  | .nan, .fl _ => 1
  | .nan, .nan => 0
  | .tid b o, .tid b' o' => if b < b' then -1 else if b' < b then 1 else icmp o o'
  | a, b => icmp a.tag b.tag

/-- `value == key` as in `int4_array_search` and its siblings, src/btree/fastpath.c:596, 629,
662, 696, 730 and 783 (`tid_cmp`, 749-767): with C operators, which are false on NaN. -/
def cEq : Val → Val → Bool
  | .int a, .int b => a == b
  | .fl a, .fl b => a == b
  | .tid b o, .tid b' o' => b == b' && o == o'
  | _, _ => false

/-- `value > key`, src/btree/fastpath.c:601 and its siblings (634, 667, 701, 735, 788). -/
def cGt : Val → Val → Bool
  | .int a, .int b => decide (b < a)
  | .fl a, .fl b => decide (b < a)
  | .tid b o, .tid b' o' => decide (b' < b) || (b == b' && decide (o' < o))
  | _, _ => false

/-- `value < key`, src/btree/fastpath.c:601 and its siblings (634, 667, 701, 735, 788). -/
def cLt : Val → Val → Bool
  | .int a, .int b => decide (a < b)
  | .fl a, .fl b => decide (a < b)
  | .tid b o, .tid b' o' => decide (b < b') || (b == b' && decide (o < o'))
  | _, _ => false

/-! ## Indexes and keys -/

/-- `OIndexField`, include/tableam/descr.h:84-103: the type of the column, ASC or DESC, NULLS FIRST or
LAST, whether the operator class is the default one of the type (`searchDesc->opcid ==
field->opclass`, src/btree/fastpath.c:138; false for included columns, whose operator class is not
filled in, src/catalog/o_indices.c:1589-1596), and whether it is an included column
(`OIgnoreColumn`, include/tableam/descr.h:265-268). -/
structure Field where
  ty : Ty
  asc : Bool
  nullfirst : Bool
  opOk : Bool
  ignored : Bool
deriving DecidableEq, Repr

/-- The kinds of indexes as far as the search distinguishes them (`OIndexType`,
include/orioledb.h:174-183): `plain` is a secondary index that is not unique. -/
inductive IKind where
  | primary | unique | plain | toast
deriving DecidableEq, Repr

/-- `OIndexDescr`: the columns of its keys in internal pages (`nonLeafTupdesc`), `nUniqueFields`
(src/catalog/o_indices.c:459, 600-603, 675), the kind, and whether keys have a fixed-length format
(`nonLeafSpec.natts == nonLeafTupdesc->natts`). -/
structure Idx where
  kind : IKind
  fields : List Field
  nUnique : Nat
  fixedSpec : Bool
deriving DecidableEq, Repr

/-- The values of the key columns of a stored row or of a separator; `none` is NULL. -/
abbrev Row := List (Option Val)

/-- `OBTreeValueBound` with its flags, include/tableam/key_range.h:21-47.  `ty` is `none` when the
type is not set (zero) or not one of `Ty`. -/
structure VB where
  value : Val
  ty : Option Ty
  lower : Bool
  upper : Bool
  incl : Bool
  isnull : Bool
  unb : Bool
deriving DecidableEq, Repr

/-- `O_VALUE_BOUND_MINUS_INFINITY` with nothing else set, include/tableam/key_range.h:30. -/
def VB.minusInf : VB := ⟨.int 0, none, true, false, false, false, true⟩

/-- `O_VALUE_BOUND_PLUS_INFINITY` with nothing else set, include/tableam/key_range.h:31. -/
def VB.plusInf : VB := ⟨.int 0, none, false, true, false, false, true⟩

/-- A key to search for, by its `BTreeKeyType` (include/btree/btree.h:41-124): nothing, the rightmost
page, a bound, the lower and upper bound for unique checks, a row or a separator, and the upper
end of a page. -/
inductive SKey where
  | none
  | rightmost
  | bound (bs : List VB)
  | uniqLow (bs : List VB)
  | uniqHigh (bs : List VB)
  | tuple (r : Row)
  | hikey (r : Row)
deriving DecidableEq, Repr

/-! ## Comparators -/

/-- `cmp_inclusive`, src/tableam/tree.c:572-581. -/
def cmpIncl (b : VB) : Int :=
  if b.lower then (if b.incl then -1 else 1)
  else if b.upper then (if b.incl then 1 else -1)
  else 0

/-- `o_idx_cmp_range_key_to_value`, src/tableam/tree.c:592-634.  Values of different but
comparable types (as `int4` and `int8`) are compared as numbers, as the comparators across types
do. -/
def cmpVal (f : Field) (b : VB) (x : Option Val) : Int :=
  match x with
  | some v =>
    if !b.isnull then
      let c := pgCmp b.value v
      let c := if !f.asc then -c else c
      if c == 0 && !b.incl then cmpIncl b else c
    else if f.nullfirst then -1 else 1
  | .none =>
    if b.isnull then (if b.incl then 0 else cmpIncl b)
    else if f.nullfirst then 1 else -1

/-- One column of `o_idx_cmp_tuples`, src/tableam/tree.c:695-706. -/
def cmpCol (f : Field) : Option Val → Option Val → Int
  | some a, some b => let c := pgCmp a b; if !f.asc then -c else c
  | none, none => 0
  | none, some _ => if f.nullfirst then -1 else 1
  | some _, none => if f.nullfirst then 1 else -1

/-- The loop of `o_idx_cmp_tuples`, src/tableam/tree.c:683-712, over the columns compared. -/
def cmpRows : List Field → Row → Row → Int
  | f :: fs, x :: a, y :: b =>
    if f.ignored then cmpRows fs a b
    else
      let c := cmpCol f x y
      if c ≠ 0 then c else cmpRows fs a b
  | _, _, _ => 0

/-- The loop of `o_idx_cmp_key_bound_to_tuple`, src/tableam/tree.c:752-770, then `fin`
(772-776). -/
def cmpBnd (fin : Int) : List Field → List VB → Row → Int
  | f :: fs, b :: bs, y :: r =>
    if f.ignored then cmpBnd fin fs bs r
    else if b.unb then (if b.lower then -1 else 1)
    else
      let c := cmpVal f b y
      if c ≠ 0 then c else cmpBnd fin fs bs r
  | _, _, _ => fin

/-- The columns compared by `o_idx_cmp_tuples` (src/tableam/tree.c:678-681) and, for
`BTreeKeyBound`, by `o_idx_cmp_key_bound_to_tuple` (740-750). -/
def Idx.cols (ix : Idx) : List Field :=
  if ix.kind = .primary then ix.fields.take ix.nUnique else ix.fields

/-- `o_idx_cmp_tuples`, src/tableam/tree.c:636-713. -/
def Idx.cmp (ix : Idx) (a b : Row) : Int := cmpRows ix.cols a b

/-- `o_idx_cmp` (src/tableam/tree.c:880-945) of the key of a search and a stored row or
separator. -/
def Idx.cmpKey (ix : Idx) (k : SKey) (r : Row) : Int :=
  match k with
  | .bound bs => cmpBnd 0 ix.cols bs r
  | .uniqLow bs => cmpBnd (-1) (ix.fields.take ix.nUnique) bs r
  | .uniqHigh bs => cmpBnd 1 (ix.fields.take ix.nUnique) bs r
  | .tuple a => ix.cmp a r
  | .hikey a => ix.cmp a r
  | .none => -1
  | .rightmost => 1

/-! ## Pages -/

/-- A chunk of a page: whether all its keys have the fixed format (`chunkKeysFixed`,
include/btree/page_contents.h:84-92; here together with the check of its size,
src/btree/fastpath.c:399-402), and its items: keys with a payload. -/
structure Chunk (α : Type) where
  fixed : Bool
  items : List (Row × α)

/-- A page: whether the keys between its chunks all have the fixed format
(`O_BTREE_FLAG_HIKEYS_FIXED`, together with the check of their size,
src/btree/fastpath.c:543-544), whether it is the rightmost of its level, its chunks and the upper ends of its
chunks (`chunkDesc[i].hikey...`; the rightmost page has none for the last chunk). -/
structure Page (α : Type) where
  fixed : Bool
  rightmost : Bool
  chunks : List (Chunk α)
  hikeys : List Row

/-- `BTreePageItemLocator`, include/btree/page_contents.h: chunk and item in it. -/
structure Loc where
  chunk : Nat
  item : Nat
deriving DecidableEq, Repr

/-- The items of chunk `c`: `page_chunk_fill_locator`, src/btree/page_chunks.c:364-388. -/
def Page.itemsAt {α} (p : Page α) (c : Nat) : List (Row × α) := (p.chunks.getD c ⟨false, []⟩).items

/-- All items of a page in order. -/
def Page.items {α} (p : Page α) : List (Row × α) := p.chunks.flatMap (·.items)

/-- `chunkDesc[c].offset`, include/btree/page_contents.h:84-92: number of items before chunk
`c`. -/
def Page.base {α} (p : Page α) (c : Nat) : Nat := ((p.chunks.take c).flatMap (·.items)).length

/-- `BTREE_PAGE_LOCATOR_GET_OFFSET`, include/btree/page_contents.h:200-202. -/
def Page.offset {α} (p : Page α) (l : Loc) : Nat := p.base l.chunk + l.item

/-! ## Regular search -/

/-- The binary search of `btree_page_binary_search_chunks` (src/btree/find.c:2154-2171) and
`btree_page_search_items` (2228-2247): `res` is the result of the comparison with the entry, `tgt`
the value of `targetCmpVal`. `fuel` only bounds the recursion. -/
def bsearch (res : Nat → Int) (tgt : Int) : Nat → Nat → Nat → Nat
  | 0, low, _ => low
  | fuel + 1, low, high =>
    if low < high then
      let mid := low + (high - low) / 2
      if tgt ≤ res mid then bsearch res tgt fuel (mid + 1) high
      else bsearch res tgt fuel low mid
    else low

/-- `keyType == BTreeKeyPageHiKey`, src/btree/find.c:2140. -/
def SKey.isHikey : SKey → Bool
  | .hikey _ => true
  | _ => false

/-- `btree_page_binary_search_chunks`, src/btree/find.c:2120-2174. -/
def searchChunks {α} (ix : Idx) (k : SKey) (p : Page α) : Nat :=
  bsearch (fun i => ix.cmpKey k (p.hikeys.getD i [])) (if k.isHikey then 1 else 0)
    p.chunks.length 0 (p.chunks.length - 1)

/-- `btree_page_search_items`, src/btree/find.c:2176-2250, in the items of chunk `c`. -/
def searchItems {α} (ix : Idx) (k : SKey) (leaf : Bool) (c : Nat) (items : List (Row × α)) : Nat :=
  if items.length = 0 then 0
  else
    bsearch (fun i =>
        if !leaf && i == 0 && c == 0 then 1
        else ix.cmpKey k ((items.map (·.1)).getD i []))
      (if !leaf && !k.isHikey then 0 else 1) items.length 0 items.length

/-- `btree_page_search`, src/btree/find.c:2086-2118 (for a hikey only in internal pages). -/
def pageSearch {α} (ix : Idx) (k : SKey) (leaf : Bool) (p : Page α) : Loc :=
  let c := searchChunks ix k p
  ⟨c, searchItems ix k leaf c (p.itemsAt c)⟩

/-- `page_locator_prev_chunk`, src/btree/page_chunks.c:448-466: to the last item of the nearest
chunk before `c` that has items. -/
def prevChunk {α} (p : Page α) : Nat → Option Loc
  | 0 => none
  | c + 1 => if (p.itemsAt c).length = 0 then prevChunk p c else some ⟨c, (p.itemsAt c).length - 1⟩

/-- `BTREE_PAGE_LOCATOR_PREV`, include/btree/page_contents.h:185-186. -/
def prevLoc {α} (p : Page α) (l : Loc) : Option Loc :=
  if 0 < l.item then some ⟨l.chunk, l.item - 1⟩ else prevChunk p l.chunk

/-- The condition of `follow_rightlink`, src/btree/find.c:1160-1165: the key is not below the
upper end of the page. -/
def goesRight {α} (ix : Idx) (k : SKey) (p : Page α) : Bool :=
  match k with
  | .none => false
  | _ => !p.rightmost &&
    decide ((if k.isHikey then 1 else 0) ≤ ix.cmpKey k (p.hikeys.getD (p.hikeys.length - 1) []))

/-- What a search in one page ends with: an item, or the way to the page on the right. -/
inductive Res where
  | at (l : Loc)
  | right
deriving DecidableEq, Repr

/-- `page_find_downlink` (src/btree/find.c:100-210) without the fast path. `right` also stands for
a page without the item looked for, which does not happen (an internal page has items). -/
def slowDownlink {α} (ix : Idx) (k : SKey) (p : Page α) : Res :=
  if goesRight ix k p then .right
  else
    match k with
    | .none => .at ⟨0, 0⟩
    | .rightmost =>
      match prevChunk p p.chunks.length with
      | some l => .at l
      | none => .right
    | _ =>
      match prevLoc p (pageSearch ix k false p) with
      | some l => .at l
      | none => .right

/-! ## The fast path -/

/-- The loop of `int4_array_search` and its siblings, src/btree/fastpath.c:592-612, at entry `i`
with `n` entries left; `set` is `lowerSet`. -/
def asLoop (arr : Nat → Val) (key : Val) (asc : Bool) (upper : Nat) :
    Nat → Nat → Nat → Bool → Nat × Nat
  | 0, _, lower, set => (if set then lower else upper, upper)
  | n + 1, i, lower, set =>
    if cEq (arr i) key && !set then asLoop arr key asc upper n (i + 1) i true
    else if (if asc then cGt (arr i) key else cLt (arr i) key) then
      (if set then lower else i, i)
    else asLoop arr key asc upper n (i + 1) lower set

/-- `int4_array_search` and its siblings, src/btree/fastpath.c:578-800. -/
def arraySearch (arr : Nat → Val) (key : Val) (asc : Bool) (lower upper : Nat) : Nat × Nat :=
  asLoop arr key asc upper (upper - lower) lower lower false

/-- A column of `FastpathFindDownlinkMeta` (include/btree/fastpath.h:43-55): a value, or
`FASTPATH_FIND_DOWNLINK_FLAG_FIRST` or `_LAST` (31-32). -/
inductive FCol where
  | val (v : Val)
  | first
  | last
deriving DecidableEq, Repr

/-- `FastpathFindDownlinkMeta`, include/btree/fastpath.h:43-55: the columns with their order
(`ascending`), and `inclusive`. -/
structure Meta where
  cols : List (FCol × Bool)
  inclusive : Bool
deriving DecidableEq, Repr

/-- Reading a column of a key of fixed format; on another key this would read something else, here
a zero. -/
def rd (r : Row) (j : Nat) : Val :=
  match r.getD j none with
  | some v => v
  | none => .int 0

/-- The loop over the columns in `fastpath_find_chunk` (src/btree/fastpath.c:547-559) and
`fastpath_find_downlink` (404-416), from column `j` on. -/
def narrow (arr : Nat → Row) : List (FCol × Bool) → Nat → Nat → Nat → Nat × Nat
  | [], _, lower, upper => (lower, upper)
  | (c, asc) :: cs, j, lower, upper =>
    if lower < upper then
      let r := match c with
        | .val v => arraySearch (fun i => rd (arr i) j) v asc lower upper
        | .first => (lower, lower)
        | .last => (upper, upper)
      narrow arr cs (j + 1) r.1 r.2
    else (lower, upper)

/-- The entry found among `count`: `meta->inclusive ? lower : upper`,
src/btree/fastpath.c:418, 561. -/
def fastPick (m : Meta) (arr : Nat → Row) (count : Nat) : Nat :=
  let r := narrow arr m.cols 0 0 count
  if m.inclusive then r.1 else r.2

/-- The columns looked at by the fast path: `meta->numKeys`, src/btree/fastpath.c:107-121. -/
def Idx.numKeys (ix : Idx) (k : SKey) : Nat :=
  match k with
  | .uniqLow _ | .uniqHigh _ => ix.nUnique
  | _ => if ix.kind = .toast then ix.fields.length else ix.nUnique

/-- The columns of a bound, src/btree/fastpath.c:228-271; `none` if a type differs. -/
def boundCols : List Field → List VB → Option (List FCol)
  | f :: fs, b :: bs =>
    if b.ty ≠ some f.ty then none
    else
      let c :=
        if b.unb then (if b.lower = f.asc then FCol.first else FCol.last)
        else if b.isnull then (if f.nullfirst then FCol.first else FCol.last)
        else .val b.value
      (boundCols fs bs).map (c :: ·)
  | _, _ => some []

/-- The fence for columns the bound does not have, src/btree/fastpath.c:286-301. -/
def fence (b : VB) : FCol := if b.lower = b.incl then .first else .last

/-- The columns of a row or separator, src/btree/fastpath.c:325-337. -/
def rowCols : List Field → Row → List FCol
  | f :: fs, x :: r =>
    (match x with
     | some v => FCol.val v
     | none => if f.nullfirst then .first else .last) :: rowCols fs r
  | _, _ => []

/-- `find_downlink_get_keys`, src/btree/fastpath.c:188-339, for the columns `fs`. -/
def getKeys (fs : List Field) (k : SKey) : Option (List FCol) :=
  match k with
  | .none => some (fs.map fun _ => .first)
  | .rightmost => some (fs.map fun _ => .last)
  | .bound bs | .uniqLow bs | .uniqHigh bs =>
    (boundCols fs bs).map fun cs =>
      match (bs.take fs.length).getLast? with
      | some b => cs ++ List.replicate (fs.length - bs.length) (fence b)
      | none => cs
  | .tuple r | .hikey r => some (rowCols fs r)

/-- `can_fastpath_find_downlink`, src/btree/fastpath.c:77-163, for a search with
`BTREE_PAGE_FIND_FETCH` in a tree of a table or index; `none` is `enabled = false`. -/
def Idx.fastMeta (ix : Idx) (k : SKey) : Option Meta :=
  if 4 ≤ ix.fields.length ∨ ix.fixedSpec = false then none
  else
    let fs := ix.fields.take (ix.numKeys k)
    if fs.all (·.opOk) then
      (getKeys fs k).map fun cs => ⟨cs.zip (fs.map (·.asc)), k.isHikey⟩
    else none

/-- `fastpath_find_chunk`, src/btree/fastpath.c:516-576; `none` is the slow path. -/
def fastChunk {α} (m : Meta) (p : Page α) : Option Nat :=
  if p.fixed then
    let count := if p.rightmost then p.chunks.length - 1 else p.chunks.length
    let c := fastPick m (fun i => p.hikeys.getD i []) count
    if count ≤ c then none else some c
  else none

/-- `fastpath_find_downlink`, src/btree/fastpath.c:341-514; `none` is the slow path. -/
def fastDownlink {α} (m : Meta) (p : Page α) : Option Loc :=
  match fastChunk m p with
  | none => none
  | some c =>
    if (p.chunks.getD c ⟨false, []⟩).fixed then
      let keys := (p.itemsAt c).map (·.1)
      if c = 0 then
        let i := fastPick m (fun i => keys.getD (i + 1) []) (keys.length - 1)
        some ⟨0, i⟩
      else
        let i := fastPick m (fun i => keys.getD i []) keys.length
        if 0 < i then some ⟨c, i - 1⟩
        else if (p.chunks.getD (c - 1) ⟨false, []⟩).fixed then
          some ⟨c - 1, (p.itemsAt (c - 1)).length - 1⟩
        else none
    else none

/-- `page_find_downlink`, src/btree/find.c:100-210; `fp` tells whether the fast path may be used
(`BTREE_PAGE_FIND_FETCH`, no lock on the page, src/btree/find.c:608-609; so in look-ups,
src/btree/iterator.c:237-239, and in scans of transactions without own changes, 961, 982). -/
def findDownlink {α} (ix : Idx) (fp : Bool) (k : SKey) (p : Page α) : Res :=
  match (if fp then ix.fastMeta k else none) with
  | none => slowDownlink ix k p
  | some m =>
    match fastDownlink m p with
    | some l => .at l
    | none => slowDownlink ix k p

/-- `page_find_item` in a leaf (src/btree/find.c:212-362), without `page_locator_find_real_item`
(which does not change the offset in the page, src/btree/page_chunks.c:1505-1542). -/
def findItem (ix : Idx) (fp : Bool) (k : SKey) (p : Page Unit) : Res :=
  let slow : Res :=
    if goesRight ix k p then .right
    else
      match k with
      | .none => .at ⟨0, 0⟩
      | .rightmost =>
        match prevChunk p p.chunks.length with
        | some l => .at l
        | none => .at ⟨0, 0⟩
      | _ => .at (pageSearch ix k true p)
  match (if fp then ix.fastMeta k else none) with
  | none => slow
  | some m =>
    match fastChunk m p with
    | some c =>
      match k with
      | .none => .at ⟨c, 0⟩
      | .rightmost => .at ⟨c, (p.itemsAt c).length - 1⟩
      | _ => .at ⟨c, searchItems ix k true c (p.itemsAt c)⟩
    | none => slow

/-! ## Trees -/

/-- A tree whose leaves are `n` levels below its root.  The items of internal pages carry the
tree below the downlink. -/
def Tree : Nat → Type
  | 0 => Page Unit
  | n + 1 => Page (Tree n)

/-- All rows of a tree in order. -/
def Tree.rows : (n : Nat) → Tree n → List Row
  | 0, (p : Page Unit) => p.items.map (·.1)
  | n + 1, (p : Page (Tree n)) => p.items.flatMap fun it => Tree.rows n it.2

/-- A position: rows of the tree before the leaf, the rows of the leaf, offset in the leaf. -/
structure Pos where
  before : Nat
  leaf : List Row
  off : Nat
deriving DecidableEq, Repr

/-- `find_page`, src/btree/find.c:503-1147, to a leaf.  `none`: the way to the page on the right of
some level, which a tree at rest with a consistent search does not take. -/
def descend (ix : Idx) (fp : Bool) (k : SKey) : (n : Nat) → Tree n → Option Pos
  | 0, (p : Page Unit) =>
    match findItem ix fp k p with
    | .at l => some ⟨0, p.items.map (·.1), p.offset l⟩
    | .right => none
  | n + 1, (p : Page (Tree n)) =>
    match findDownlink ix fp k p with
    | .at l =>
      match p.items[p.offset l]? with
      | some it =>
        (descend ix fp k n it.2).map fun q =>
          { q with
            before := ((p.items.take (p.offset l)).flatMap fun it => Tree.rows n it.2).length
              + q.before }
      | none => none
    | .right => none

/-- `o_btree_find_tuple_by_key` (src/btree/iterator.c:206-300, 633-668) without versions of
rows. -/
def lookup (ix : Idx) (fp : Bool) (k : SKey) (n : Nat) (t : Tree n) : Option (Option Row) :=
  (descend ix fp k n t).map fun q =>
    match q.leaf[q.off]? with
    | some r => if ix.cmpKey k r = 0 then some r else none
    | none => none

/-! ## Ranges of keys -/

/-- A condition on a column after `_bt_preprocess_keys` of PostgreSQL: comparison operators in
the order of storage (for a DESC column the opposite operators), and tests for NULL. -/
inductive Op where
  | lt | le | eq | ge | gt | isNull | notNull
deriving DecidableEq, Repr

/-- `ScanKeyData`: column (from 0), operator, value and its type (`sk_subtype`, or the type of the
column, src/tableam/key_range.c:401-404). -/
structure SCond where
  col : Nat
  op : Op
  value : Val
  ty : Option Ty
deriving DecidableEq, Repr

/-- The two bounds of one condition before they are merged, src/tableam/key_range.c:134-204 and
`o_fill_key_bounds`, 438-473. -/
def condBounds (f : Field) (c : SCond) : VB × VB :=
  let val (lower upper incl : Bool) : VB := ⟨c.value, c.ty, lower, upper, incl, false, false⟩
  let nul (lower upper incl : Bool) (ty : Option Ty) : VB :=
    ⟨c.value, ty, lower, upper, incl, true, false⟩
  match c.op with
  | .lt => (if f.nullfirst then nul true false false c.ty else .minusInf, val false true false)
  | .le => (if f.nullfirst then nul true false false c.ty else .minusInf, val false true true)
  | .eq => (val true false true, val false true true)
  | .gt => (val true false false, if f.nullfirst then .plusInf else nul false true false c.ty)
  | .ge => (val true false true, if f.nullfirst then .plusInf else nul false true false c.ty)
  | .isNull => (nul true false true none, nul false true true none)
  | .notNull =>
    (if f.nullfirst then nul true false false none else .minusInf,
     if f.nullfirst then .plusInf else nul false true false none)

/-- `o_idx_cmp_value_bounds`, src/tableam/tree.c:779-878: result and `*equal`. -/
def cmpBounds (f : Field) (a b : VB) : Int × Bool :=
  if !a.isnull && !a.unb && !b.isnull && !b.unb then
    let c := pgCmp a.value b.value
    let c := if !f.asc then -c else c
    if c = 0 then (cmpIncl a - cmpIncl b, a.incl && b.incl) else (c, false)
  else if a.unb || b.unb then
    if a.unb && b.unb then
      if a.lower = b.lower ∧ a.upper = b.upper then (0, false)
      else (if a.lower then -1 else 1, false)
    else if a.unb then (if a.lower then -1 else 1, false)
    else (if b.lower then 1 else -1, false)
  else if a.isnull && b.isnull then (cmpIncl a - cmpIncl b, false)
  else if a.isnull then (if f.nullfirst then -1 else 1, false)
  else (if f.nullfirst then 1 else -1, false)

/-- The range of one column: all its conditions merged, src/tableam/key_range.c:410-415. -/
def mergeCond (f : Field) (r : VB × VB) (c : SCond) : VB × VB :=
  let lh := condBounds f c
  (if 0 ≤ (cmpBounds f lh.1 r.1).1 then lh.1 else r.1,
   if (cmpBounds f lh.2 r.2).1 ≤ 0 then lh.2 else r.2)

/-- The range of column `j`: the loop over the conditions, src/tableam/key_range.c:121-417, for one
column. -/
def colRange (f : Field) (cs : List SCond) (j : Nat) : VB × VB :=
  (cs.filter (fun c => c.col == j)).foldl (mergeCond f) (.minusInf, .plusInf)

/-- The ranges of the columns `fs`, of which the first is column `j`: `res->low` and `res->high`,
src/tableam/key_range.c:121-417. -/
def colRanges (cs : List SCond) : List Field → Nat → List (VB × VB)
  | [], _ => []
  | f :: fs, j => colRange f cs j :: colRanges cs fs (j + 1)

/-- Whether the range is empty, src/tableam/key_range.c:419-430. -/
def rangeEmpty : List Field → List (VB × VB) → Bool
  | f :: fs, r :: rs => decide (0 ≤ (cmpBounds f r.1 r.2).1) || rangeEmpty fs rs
  | _, _ => false

/-- Whether the range is one complete key, src/tableam/key_range.c:432-435. -/
def rangeExact : List Field → List (VB × VB) → Bool
  | f :: fs, r :: rs => (cmpBounds f r.1 r.2).2 && rangeExact fs rs
  | _, _ => true

/-- `o_get_num_prefix_exact_keys`, src/indexam/handler.c:1707-1722, from column `j` on. -/
def prefixExact : List SCond → Nat → Nat
  | c :: cs, j => if c.col = j ∧ c.op = .eq then prefixExact cs (j + 1) else j
  | [], j => j

/-- `is_tuple_valid`, src/tableam/index_scan.c:123-159, from column `j` on; columns up to `np` are
not looked at. -/
def validFrom (np : Nat) : List Field → List (VB × VB) → Row → Nat → Bool
  | f :: fs, lh :: rs, x :: r, j =>
    (if np + 1 ≤ j then
       (lh.1.unb || ((lh.1.isnull || x.isSome) && decide (cmpVal f lh.1 x ≤ 0))) &&
       (lh.2.unb || ((lh.2.isnull || x.isSome) && decide (0 ≤ cmpVal f lh.2 x)))
     else true) && validFrom np fs rs r (j + 1)
  | _, _, _, _ => true

/-! ## Index scans -/

/-- Rows from a position on, forward: up to the first above the upper bound
(`o_btree_iterator_fetch`, src/btree/iterator.c:1304-1330), without those that
`is_tuple_valid` refuses (src/tableam/index_scan.c:805-858). -/
def forwardFrom (ix : Idx) (rs : List (VB × VB)) (np : Nat) (rows : List Row) : List Row :=
  (rows.takeWhile fun r => decide (0 ≤ ix.cmpKey (.bound (rs.map (·.2))) r)).filter
    fun r => validFrom np ix.fields rs r 0

/-- An index scan, `switch_to_next_range` and `o_iterate_index` (src/tableam/index_scan.c:536-675,
747-953): with a range that is one complete key a look-up (771-781), otherwise forward from the
lower bound (805-858), also when the range is empty (`o_key_data_to_key_range` then returns false,
src/tableam/key_range.c:428-429).  `none` as in `descend`. -/
def scan (ix : Idx) (fp : Bool) (cs : List SCond) (n : Nat) (t : Tree n) : Option (List Row) :=
  let rs := colRanges cs ix.fields 0
  if !rangeEmpty ix.fields rs && rangeExact ix.fields rs then
    (lookup ix fp (.bound (rs.map (·.1))) n t).map Option.toList
  else
    (descend ix fp (.bound (rs.map (·.1))) n t).map fun q =>
      forwardFrom ix rs (prefixExact cs 0) ((Tree.rows n t).drop (q.before + q.off))

/-- Rows up to which a backward scan starts: the row at the position if it is not above the bound
(`advance_page_location_if_needed`, src/btree/iterator.c:905-937). -/
def backFrom (ix : Idx) (k : SKey) (q : Pos) : Nat :=
  q.before + q.off +
    match q.leaf[q.off]? with
    | some r => if ix.cmpKey k r < 0 then 0 else 1
    | none => 0

/-- Rows back from a position: down to the first below the lower bound
(`o_btree_iterator_fetch`, src/btree/iterator.c:1304-1330), without those that
`is_tuple_valid` refuses (src/tableam/index_scan.c:805-858). -/
def backwardFrom (ix : Idx) (rs : List (VB × VB)) (np : Nat) (rows : List Row) : List Row :=
  (rows.reverse.takeWhile fun r => decide (ix.cmpKey (.bound (rs.map (·.1))) r ≤ 0)).filter
    fun r => validFrom np ix.fields rs r 0

/-- A backward index scan, src/tableam/index_scan.c:536-675, 747-953: from the upper bound. -/
def scanBack (ix : Idx) (fp : Bool) (cs : List SCond) (n : Nat) (t : Tree n) :
    Option (List Row) :=
  let rs := colRanges cs ix.fields 0
  if !rangeEmpty ix.fields rs && rangeExact ix.fields rs then
    (lookup ix fp (.bound (rs.map (·.1))) n t).map Option.toList
  else
    (descend ix fp (.bound (rs.map (·.2))) n t).map fun q =>
      backwardFrom ix rs (prefixExact cs 0)
        ((Tree.rows n t).take (backFrom ix (.bound (rs.map (·.2))) q))

/-! ## What scans are for -/

/-- Whether a stored value satisfies a condition. -/
def SCond.holds (f : Field) (c : SCond) (x : Option Val) : Bool :=
  match c.op, x with
  | .isNull, x => x.isNone
  | .notNull, x => x.isSome
  | _, none => false
  | op, some v =>
    let d := if f.asc then pgCmp v c.value else - pgCmp v c.value
    match op with
    | .lt => decide (d < 0)
    | .le => decide (d ≤ 0)
    | .eq => decide (d = 0)
    | .ge => decide (0 ≤ d)
    | .gt => decide (0 < d)
    | _ => false

end Verif.Fastpath
