/-!
# Room on B-tree pages: model

How an index level finds room for its rows: the estimate whether an item fits, compaction, the
split of a page, the merge of two pages, items inserted on behalf of waiting processes, and the
build of an index.  Pages are lists of chunks of items with their sizes; that the bytes of a page
are laid out accordingly (`src/btree/page_chunks.c`) is not modelled here, nor are the areas of
the keys that separate chunks.  The page on which an operation works is the one found by key, as
after the descent of the tree; the tree above the level is not modelled.
-/

namespace Verif.PageSplit

/-! ## Sizes -/

/-- `ORIOLEDB_BLCKSZ`, include/orioledb.h:122. -/
def blck : Nat := 8192

/-- `MAXALIGN(sizeof(BTreePageHeader))`, include/btree/page_contents.h:124-154: 56 bytes before
`chunkDesc` and one descriptor of 4 bytes. -/
def hdrSize : Nat := 64

/-- `BTreeLeafTuphdrSize` and `BTreeNonLeafTuphdrSize`, include/btree/page_contents.h:283-300. -/
def itemHdr (leaf : Bool) : Nat := if leaf then 16 else 8

/-- `BTREE_PAGE_HIKEYS_END`, include/btree/page_contents.h:168. -/
def hikeysEnd (leaf : Bool) : Nat := if leaf then 256 else 512

/-- `O_BTREE_MAX_TUPLE_SIZE` = `O_BTREE_MAX_KEY_SIZE`, include/btree/page_contents.h:327-328:
`MAXALIGN_DOWN((8192 - 64) / 3 - 2 - 16)`. -/
def maxTup : Nat := 2688

/-- `MAXALIGN` (PostgreSQL): up to a multiple of 8. -/
def ma (n : Nat) : Nat := (n + 7) / 8 * 8

/-- The room for the array of locations of `n` items of a chunk, `MAXALIGN(sizeof(LocationIndex)
* n)`, e.g. src/btree/page_chunks.c:240-242. -/
def arr (n : Nat) : Nat := ma (2 * n)

/-- `MAXALIGN_WASTE`, src/btree/page_chunks.c:1001-1002. -/
def waste (n : Nat) : Nat := 7 - (n + 7) % 8

/-! ## Rows and items -/

/-- A tuple: `key` is what the comparator of the index sees, `len` is `o_btree_len(OTupleLength)`,
`klen` the length of its key (`OTupleKeyLengthNoVersion`, also that of the key made of it),
`body` stands for the rest.  In internal pages a tuple is a key and `len = klen`.
include/btree/btree.h:170-174, 192-199. -/
structure Tup where
  key : Nat
  len : Nat
  klen : Nat
  body : Nat
deriving DecidableEq, Repr

/-- What a header of the chain of a row did (include/btree/page_contents.h:290-297,
src/btree/undo.c:361-460). -/
inductive Act where
  | ins
  | upd (old : Tup) (oldDeleted : Bool)
  | del
  | lock
deriving DecidableEq, Repr

/-- A header of the chain: the one on the page is the first, the others are in the undo log.
`BTreeLeafTuphdr`, include/btree/page_contents.h:290-328. -/
structure Rec where
  xid : Nat
  act : Act
deriving DecidableEq, Repr

/-- `XACT_INFO_IS_LOCK_ONLY`, include/btree/btree.h.  include/btree/btree.h:461-462. -/
def Rec.isLock (r : Rec) : Bool := r.act == .lock

/-- A row: current tuple, deleted or not, chain of headers.
include/btree/page_contents.h:290-328. -/
structure Row where
  tup : Tup
  deleted : Bool
  chain : List Rec
deriving DecidableEq, Repr

/-- The transaction in the header on the page (`tupHdr->xactInfo`); without a chain a frozen one.
include/btree/page_contents.h:290-328. -/
def Row.xid (r : Row) : Nat := match r.chain with | [] => 0 | c :: _ => c.xid

/-- An item: a row and the room it has on the page (`BTREE_PAGE_GET_ITEM_SIZE`,
src/btree/page_chunks.c:562-589). -/
structure Item where
  row : Row
  size : Nat
deriving DecidableEq, Repr

/-- The room a tuple needs, `BTreeLeafTuphdrSize + MAXALIGN(len)`, e.g.
src/btree/page_contents.c:543. -/
def need (leaf : Bool) (t : Tup) : Nat := itemHdr leaf + ma t.len

/-- Which transactions are finished for everybody and what their CSN maps to
(`XACT_INFO_FINISHED_FOR_EVERYBODY`, `XACT_INFO_MAP_CSN`, include/btree/btree.h:486-487,
src/transam/oxid.c:2254-2281): `none` is running, or aborted but not undone. -/
abbrev Env := Nat → Option Nat

/-- `XACT_INFO_FINISHED_FOR_EVERYBODY`, include/btree/btree.h:486-487; rows written by a build have
the transaction 0 here (`BootstrapTransactionId`, src/transam/oxid.c:2260). -/
def Env.fin (e : Env) (x : Nat) : Bool := x == 0 || (e x).isSome

/-- `XACT_INFO_MAP_CSN`, include/btree/btree.h:463-464. -/
def Env.csn (e : Env) (x : Nat) : Nat := if x = 0 then 0 else (e x).getD 0

/-- The deleted row may be dropped: src/btree/split.c:84-86, src/btree/merge.c:686-690.
`csn = none` is `COMMITSEQNO_INPROGRESS`.  The case of a frozen `csn` (split.c:84) is left out:
no caller passes it. -/
def Row.droppable (e : Env) (csn : Option Nat) (r : Row) : Bool :=
  r.deleted && e.fin r.xid && csn.all (fun c => decide (e.csn r.xid < c))

/-- The item as copied by a reorganisation: rows whose header is finished are cut to the room
they need, src/btree/split.c:96-98. -/
def Item.slim (e : Env) (it : Item) : Item :=
  if e.fin it.row.xid then { it with size := need true it.row.tup } else it

/-- The items kept, in leaf pages; in internal pages all are copied as they are,
src/btree/split.c:77-105. -/
def keep (leaf : Bool) (e : Env) (csn : Option Nat) (l : List Item) : List Item :=
  if leaf then (l.filter (fun it => !it.row.droppable e csn)).map (Item.slim e) else l

/-! ## Pages -/

/-- A page of a level.  `hi` is its high key, `none` on the rightmost page; `hikeySize` the room
it takes; `start` where the data begins; the items are in chunks; `maxKey` is
`header->maxKeyLen`.  include/btree/page_contents.h:84-154. -/
structure Page where
  leaf : Bool
  hi : Option Tup
  start : Nat
  chunks : List (List Item)
  maxKey : Nat
deriving DecidableEq, Repr

/-- `BTREE_PAGE_GET_HIKEY_SIZE`, 0 on rightmost pages, src/btree/split.c:112. -/
def Page.hikeySize (p : Page) : Nat := match p.hi with | none => 0 | some t => ma t.klen

/-- The items of a page in their order; a place on the page is `chunkDesc[].offset` and the place in
the chunk (`BTREE_PAGE_LOCATOR_GET_OFFSET`, include/btree/page_contents.h:200-201). -/
def Page.items (p : Page) : List Item := p.chunks.flatten

/-- The room of items without their array (`totalDataSize`, src/btree/page_chunks.c:1248-1250). -/
def sizes (l : List Item) : Nat := (l.map (·.size)).sum

/-- A chunk: its array of locations and its items, src/btree/page_chunks.c:472-543. -/
def chunkSize (l : List Item) : Nat := arr l.length + sizes l

/-- `header->dataSize`.  include/btree/page_contents.h:152. -/
def Page.dataSize (p : Page) : Nat := p.start + (p.chunks.map chunkSize).sum

/-- A new page: `init_page_first_chunk`, src/btree/page_chunks.c:338-362. -/
def Page.empty (leaf : Bool) : Page := ⟨leaf, none, hikeysEnd leaf, [[]], 0⟩

/-! ## Reorganisation of a page -/

/-- The boundaries of the chunks, src/btree/page_chunks.c:1292-1348: `cur` is the chunk being
filled (last item first), `left` the room left; at item `i` a new chunk begins if there is room
for the waste of the old one and `cut i`.  `cut` stands for the room for the key and the comparison of ratios in
floating point (1319-1330). -/
def cutLoop (cut : Nat → Bool) : Nat → Nat → List Item → List Item → List (List Item)
  | _, _, cur, [] => [cur.reverse]
  | i, left, cur, x :: xs =>
    if cur ≠ [] ∧ waste (2 * cur.length) ≤ left ∧ cut i = true then
      cur.reverse :: cutLoop cut (i + 1) (left - waste (2 * cur.length)) [x] xs
    else cutLoop cut (i + 1) left (x :: cur) xs

/-- The longest key: src/btree/page_chunks.c:1290-1313; in internal pages the first has none. -/
def maxKeyOf (leaf : Bool) (hikeySize : Nat) (l : List Item) : Nat :=
  ((if leaf then l else l.tail).map (fun it => ma it.row.tup.klen)).foldl max hikeySize

/-- `btree_page_reorg`, src/btree/page_chunks.c:1217-1472; `none` is the error of 1273-1283. -/
def reorg (cut : Nat → Bool) (leaf : Bool) (hi : Option Tup) (l : List Item) : Option Page :=
  let hk := match hi with | none => 0 | some t => ma t.klen
  let start := max (hikeysEnd leaf) (hdrSize + hk)
  if start + sizes l + arr l.length > blck then none
  else
    some ⟨leaf, hi, start, cutLoop cut 0 (blck - start - sizes l - arr l.length) [] l,
      maxKeyOf leaf hk l⟩

/-! ## Items for a split or a compaction -/

/-- `BTreeSplitItems`, include/btree/split.h:21-29.  `hikeysEnd` is given by `leaf`. -/
structure SplitItems where
  items : List Item
  hikeySize : Nat
  maxKeyLen : Nat
  leaf : Bool
deriving Repr

/-- The loop of `make_split_items`, src/btree/split.c:44-109: `i` items are out, the new one goes
to `off`. -/
def makeLoop (leaf replace : Bool) (e : Env) (csn : Option Nat) (new : Item) :
    Nat → Nat → List Item → List Item
  | i, off, [] => if i = off then [new] else []
  | i, off, x :: xs =>
    if i = off ∧ replace = true then new :: makeLoop leaf replace e csn new (i + 1) off xs
    else
      let pre := if i = off then [new] else []
      let i' := if i = off then i + 1 else i
      if leaf = true ∧ x.row.droppable e csn = true then
        pre ++ makeLoop leaf replace e csn new i' (if i' < off then off - 1 else off) xs
      else
        pre ++ (if leaf then x.slim e else x) ::
          makeLoop leaf replace e csn new (i' + 1) off xs

/-- `make_split_items`, src/btree/split.c:31-115. -/
def makeSplitItems (p : Page) (replace : Bool) (e : Env) (csn : Option Nat) (new : Item)
    (off : Nat) : SplitItems :=
  { items := makeLoop p.leaf replace e csn new 0 off p.items
    hikeySize := p.hikeySize
    maxKeyLen := max (ma p.maxKey) new.row.tup.klen
    leaf := p.leaf }

/-- `split_items_fit_single_page`, src/btree/split.c:185-203. -/
def fitSingle (s : SplitItems) : Bool :=
  decide (max (hikeysEnd s.leaf) (hdrSize + s.maxKeyLen) + sizes s.items +
    arr s.items.length ≤ blck)

/-! ## The place of a split -/

/-- The loop of `btree_page_split_find_location`, src/btree/split.c:256-295.  `l`, `r` are the
rooms left on the left and on the right page, `mn`, `mx` the numbers of items the left page has
at least and at most; `pick` stands for the comparison in floating point. -/
def findLoop (ss : List Nat) (target : Nat) (pick : Int → Int → Bool) :
    Nat → Int → Int → Nat → Nat → Option Nat
  | 0, _, _, _, _ => none
  | f + 1, l, r, mn, mx =>
    if mn = mx then some mn
    else if r ≤ 0 ∨ (l > 0 ∧ (if target = 0 then pick l r else decide (mn < target)) = true) then
      if l ≤ 0 then none
      else
        let l' := l - (ss.getD mn 0 + arr (mn + 1) - arr mn : Int)
        if l' < 0 then findLoop ss target pick f l' r mn mx
        else findLoop ss target pick f l' r (mn + 1) mx
    else if r ≤ 0 then none
    else
      let r' := r - (ss.getD (mx - 1) 0 + arr (ss.length - mx + 1) - arr (ss.length - mx) : Int)
      if r' < 0 then findLoop ss target pick f l r' mn mx
      else findLoop ss target pick f l r' mn (mx - 1)

/-- `btree_page_split_find_location`, src/btree/split.c:218-300; `none` is false.  The loop is
bounded by the number of items. -/
def findLocation (s : SplitItems) (target : Nat) (pick : Int → Int → Bool) : Option Nat :=
  let ss := s.items.map (·.size)
  if ss.length < 2 then none
  else
    let l : Int := blck - max (hikeysEnd s.leaf) (hdrSize + s.maxKeyLen) - (ss.getD 0 0 + arr 1)
    let r : Int := blck - max (hikeysEnd s.leaf) (hdrSize + s.hikeySize) -
      (ss.getD (ss.length - 1) 0 + arr 1)
    if l < 0 ∨ r < 0 then none
    else findLoop ss target pick (ss.length + 3) l r 1 (ss.length - 1)

/-- `btree_page_split_can_succeed`, src/btree/split.c:309-313. -/
def canSucceed (s : SplitItems) (half : Int → Int → Bool) : Bool :=
  (findLocation s 0 half).isSome

/-! ## The outcome of an operation -/

/-- What an operation on a page comes to: the pages in place of the page; `panic`: an error in
the critical section; `undef`: a variable is read that was not set; `over`: bytes are written
beyond the item.
src/btree/page_chunks.c:1273-1283; src/btree/split.c:323-346; src/btree/undo.c:234-244. -/
inductive Out where
  | ok (ps : List Page)
  | panic
  | undef
  | over
deriving DecidableEq, Repr

/-- Decisions that are not modelled: floating point, statistics, and what happens meanwhile.
src/btree/split.c:256-295, src/btree/page_chunks.c:1004-1152, 1292-1348,
include/btree/page_contents.h:140-145. -/
structure Orc where
  /-- the comparison with the ratio of a split -/
  pick : Int → Int → Bool
  /-- the preferred place of a split -/
  target : Nat
  /-- where chunks begin on the left page -/
  cutL : Nat → Bool
  /-- where chunks begin on the right page -/
  cutR : Nat → Bool
  /-- `PAGE_GET_N_VACATED` -/
  vac : Nat
  /-- where the chunk is split after the insertion (`page_split_chunk_if_needed`) -/
  split : Option Nat
  /-- the chunk, if the place is between two -/
  chunk : Nat

/-- `perform_page_compaction`, src/btree/split.c:117-178. -/
def compact (o : Orc) (p : Page) (l : List Item) : Out :=
  match reorg o.cutL p.leaf p.hi l with
  | none => .panic
  | some q => .ok [q]

/-- The first key of an internal page is cut off, src/btree/split.c:458-461. -/
def cutFirst (leaf : Bool) : List Item → List Item
  | [] => []
  | x :: xs => if leaf then x :: xs else { x with size := itemHdr false } :: xs

/-- `btree_page_split_location` and `perform_page_split` as called by `o_btree_insert_split`,
src/btree/split.c:323-346 and 436-512, src/btree/insert.c:829-832, 900-902: the key of the first
item of the right page becomes the high key of the left page. -/
def doSplit (o : Orc) (p : Page) (s : SplitItems) : Out :=
  match findLocation s o.target o.pick with
  | none => .undef
  | some k =>
    match s.items.drop k with
    | [] => .undef
    | x :: xs =>
      match reorg o.cutR p.leaf p.hi (cutFirst p.leaf (x :: xs)),
          reorg o.cutL p.leaf (some x.row.tup) (s.items.take k) with
      | some right, some left => .ok [left, right]
      | _, _ => .panic

/-! ## Does an item fit? -/

/-- `BTreeItemPageFitType`, include/btree/page_chunks.h:19-24. -/
inductive Fit where
  | asIs
  | compact
  | split
deriving DecidableEq, Repr

/-- `page_get_vacated_skip_item`, src/btree/page_contents.c:516-550. -/
def vacated (e : Env) (csn : Option Nat) (skip : Option Nat) : Nat → List Item → Nat
  | _, [] => 0
  | i, x :: xs =>
    (if skip = some i then 0
      else if x.row.droppable e csn then x.size
      else if e.fin x.row.xid && !x.row.deleted then x.size - need true x.row.tup
      else 0) + vacated e csn skip (i + 1) xs

/-- `page_locator_fits_item`, src/btree/page_chunks.c:223-336.  `n` is the number of items of the
chunk, `off` the place on the page. -/
def fitsItem (bridge : Bool) (o : Orc) (p : Page) (e : Env) (next : Nat) (n off : Nat)
    (size : Nat) (replace : Bool) : Fit :=
  let old := (p.items[off]?.map (·.size)).getD 0
  let free : Int := blck - p.dataSize
  let want : Int := if replace then size - old else size + arr (n + 1) - arr n
  if free ≥ want then .asIs
  else if !p.leaf || bridge then .split
  else
    let less : Int := if replace then
        match p.items[off]? with
        | none => 0
        | some it => if it.row.deleted then it.size else it.size - need true it.row.tup
      else 0
    if free + o.vac - less < want then .split
    else if free + vacated e (some next) (if replace then some off else none) 0 p.items ≥ want
    then .compact
    else .split

/-! ## An item is put on a page -/

/-- Replaces chunk `c`.  Auxiliary of the model, without counterpart in /repo. -/
def setChunk (cs : List (List Item)) (c : Nat) (l : List Item) : List (List Item) := cs.set c l

/-- `page_split_chunk_if_needed`, src/btree/page_chunks.c:1004-1152, and `page_split_chunk`,
865-999: chunk `c` is split before item `k` if there is room for the arrays (1085-1090). -/
def splitChunk (p : Page) (c : Nat) : Option Nat → Page
  | none => p
  | some k =>
    match p.chunks[c]? with
    | none => p
    | some l =>
      if 0 < k ∧ k < l.length ∧ p.dataSize + (arr k + arr (l.length - k) - arr l.length) ≤ blck
      then { p with chunks := p.chunks.take c ++ [l.take k, l.drop k] ++ p.chunks.drop (c + 1) }
      else p

/-- The chunk of the place `off` and the place in it: the last chunk that begins there or before
(`page_item_fill_locator`, src/btree/page_chunks.c:389-403). -/
def locate : List (List Item) → Nat → Nat × Nat
  | [], off => (0, off)
  | [_], off => (0, off)
  | c :: c' :: cs, off =>
    if off < c.length then (0, off)
    else ((locate (c' :: cs) (off - c.length)).1 + 1, (locate (c' :: cs) (off - c.length)).2)

/-- Where chunk `c` begins (`chunkDesc[c].offset`).  include/btree/page_contents.h:84-92. -/
def base (cs : List (List Item)) (c : Nat) : Nat := ((cs.take c).map List.length).sum

/-- The chunk of the place `off` and the place in it, as found by the search: a place between two
chunks may also be found as the end of the first, `want`.  src/btree/find.c:2086-2260. -/
def chunkOf (cs : List (List Item)) (off want : Nat) (inside : Bool) : Nat × Nat :=
  if inside = false ∧ want < cs.length ∧ base cs want ≤ off ∧
      off ≤ base cs want + (cs.getD want []).length
  then (want, off - base cs want)
  else locate cs off

/-- The insertion or replacement of an item that fits, src/btree/insert.c:1433-1510: a new item is
put into its chunk; a replaced one is made larger if necessary but not smaller, and the longest
key is not looked at then. -/
def putAsIs (o : Orc) (p : Page) (c k : Nat) (new : Item) (replace : Bool) : Page :=
  let l := p.chunks.getD c []
  let q : Page :=
    if replace then
      { p with
        chunks := setChunk p.chunks c
          (l.set k { new with size := max new.size ((l[k]?.map (·.size)).getD 0) }) }
    else
      { p with
        chunks := setChunk p.chunks c (l.take k ++ new :: l.drop k)
        maxKey := max p.maxKey (ma new.row.tup.klen) }
  splitChunk q c o.split

/-- `o_btree_insert_item_no_waiters`, src/btree/insert.c:1397-1577.  `e` are the transactions at
the estimate, `e2` those when the items are collected; `csn` is taken in between. -/
def putItem (bridge : Bool) (o : Orc) (p : Page) (e e2 : Env) (next : Nat) (csn : Option Nat)
    (off : Nat) (new : Item) (replace : Bool) : Out :=
  let (c, k) := chunkOf p.chunks off o.chunk replace
  match fitsItem bridge o p e next (p.chunks.getD c []).length off new.size replace with
  | .asIs => .ok [putAsIs o p c k new replace]
  | f =>
    let s := makeSplitItems p replace e2 csn new off
    if f = .compact ∨ (p.leaf = true ∧ fitSingle s = true) then compact o p s.items
    else doSplit o p s

/-! ## Items of waiting processes -/

/-- A tuple a waiting process wants to insert, with the number of the process
(`TupleWaiterInfo`, src/btree/insert.c:428-434). -/
abbrev Waiter := Nat × Item

/-- The key of its tuple, src/btree/insert.c:473-489. -/
def Waiter.key (y : Waiter) : Nat := y.2.row.tup.key

/-- An accepted waiter (`accepted[]`, src/btree/insert.c:532-546): its place among the items, the
number of the process, the length of its key. -/
structure Acc where
  pos : Nat
  id : Nat
  klen : Nat
deriving DecidableEq, Repr

/-- The state of the merge of `merge_waited_tuples`, src/btree/insert.c:520-563.  `ins` and `ws`
are the items and the waiters left; `acc` are the accepted ones, last first. -/
structure Mw where
  ins : List Item
  ws : List Waiter
  finished : Bool
  out : List Item
  acc : List Acc
  last : Option Item
  total : Nat
  count : Nat
  maxKeyLen : Nat
deriving Repr

/-- src/btree/insert.c:576-577: an item or a waiter is left. -/
def Mw.more (m : Mw) : Bool := !m.ins.isEmpty || (!m.ws.isEmpty && !m.finished)

/-- An item is put out, src/btree/insert.c:701-708. -/
def Mw.emit (m : Mw) : Mw :=
  match m.ins with
  | [] => m
  | x :: xs => { m with ins := xs, out := m.out ++ [x] }

/-- A waiter is looked at, src/btree/insert.c:616-700: one with the key of the last accepted one
is skipped; if the total gets too large for two pages, no further one is accepted. -/
def Mw.take (rightSpace : Nat) (m : Mw) : Mw :=
  match m.ws with
  | [] => m
  | y :: ys =>
    if (m.last.any (fun x => x.row.tup.key == y.key)) = true then
      { m with ws := ys }
    else
      let mk := max m.maxKeyLen (ma y.2.row.tup.klen)
      if m.total + y.2.size + 2 * arr (m.count + 1) >
          blck - max (hikeysEnd true) (hdrSize + mk) + rightSpace then
        { m with finished := true }
      else
        { m with
          ws := ys
          out := m.out ++ [y.2]
          acc := ⟨m.out.length, y.1, ma y.2.row.tup.klen⟩ :: m.acc
          last := some y.2
          total := m.total + y.2.size
          count := m.count + 1
          maxKeyLen := mk }

/-- A turn of the loop of `merge_waited_tuples`, src/btree/insert.c:576-711. -/
def Mw.step (rightSpace : Nat) (m : Mw) : Mw :=
  match m.ins, m.ws with
  | [], _ => m.take rightSpace
  | _ :: _, [] => m.emit
  | x :: _, y :: ys =>
    if m.finished then m.emit
    else if x.row.tup.key = y.key then { m with ws := ys }
    else if x.row.tup.key < y.key then m.emit
    else m.take rightSpace

/-- The loop; each turn takes an item or a waiter away or sets `finished`.
src/btree/insert.c:576-711. -/
def Mw.loop (rightSpace : Nat) : Nat → Mw → Mw
  | 0, m => m
  | f + 1, m => if m.more then (m.step rightSpace).loop rightSpace f else m

/-- The second part, src/btree/insert.c:734-772: while the items neither fit on a page nor can be
split, the last accepted one is taken back. -/
def mwDrop (inp : SplitItems) (half : Int → Int → Bool) (single : Nat) :
    List Acc → SplitItems → List Acc × SplitItems
  | [], s => ([], s)
  | a :: acc, s =>
    if sizes s.items + arr s.items.length > single ∧ canSucceed s half = false then
      mwDrop inp half single acc
        { s with
          items := s.items.eraseIdx a.pos
          maxKeyLen :=
            if s.maxKeyLen = a.klen then (acc.map (·.klen)).foldl max inp.maxKeyLen
            else s.maxKeyLen }
    else (a :: acc, s)

/-- `merge_waited_tuples`, src/btree/insert.c:514-786: the items, the waiters whose tuples are
among them, and whether a split is needed. -/
def mergeWaited (inp : SplitItems) (half : Int → Int → Bool) (ws : List Waiter) :
    SplitItems × List Nat × Bool :=
  let single := blck - max (hikeysEnd inp.leaf) (hdrSize + inp.hikeySize)
  let m := Mw.loop single (inp.items.length + ws.length + 1)
    ⟨inp.items, ws, false, [], [], none, sizes inp.items, inp.items.length, inp.maxKeyLen⟩
  let r := mwDrop inp half single m.acc
    { inp with
      items := m.out
      maxKeyLen := (m.acc.map (·.klen)).foldl max inp.maxKeyLen }
  (r.2, r.1.map (·.id), decide (sizes r.2.items + arr r.2.items.length > single))

/-- The place of a key on a leaf page (`btree_page_search`, src/btree/find.c:2086-2118): before the
first item with this or a larger key.  The search itself is not modelled here. -/
def lower (k : Nat) (l : List Item) : Nat :=
  (l.takeWhile (fun x => decide (x.row.tup.key < k))).length

/-- The loop over the waiters if all fit into the free room, src/btree/insert.c:1253-1310, with
`btree_leaf_probe_insert_slot`, 1016-1043, and `btree_leaf_write_new_item`, 1052-1077.  Gives the
page and the processes whose tuples were inserted. -/
def fastWaiters (o : Orc) : Page → List Waiter → Page × List Nat
  | p, [] => (p, [])
  | p, y :: ys =>
    if (p.hi.any (fun t => decide (t.key ≤ y.key))) = true then fastWaiters o p ys
    else
      let off := lower y.key p.items
      let ck := chunkOf p.chunks off o.chunk false
      let n := (p.chunks.getD ck.1 []).length
      if blck < p.dataSize + (y.2.size + arr (n + 1) - arr n) then (p, [])
      else if (p.items[off]?.any (fun x => x.row.tup.key == y.key)) = true then
        fastWaiters o p ys
      else
        let r := fastWaiters o (putAsIs { o with split := none } p ck.1 ck.2 y.2 false) ys
        (r.1, y.1 :: r.2)

/-- `waiter_info_cmp` and `qsort_arg`, src/btree/insert.c:473-489, 1316-1320.  Waiters with equal
keys may come in any order; here in the order given. -/
def insertW (y : Waiter) : List Waiter → List Waiter
  | [] => [y]
  | z :: zs => if y.key ≤ z.key then y :: z :: zs else z :: insertW y zs

/-- The sort by insertion, in place of `qsort_arg`, src/btree/insert.c:1316-1320. -/
def sortW : List Waiter → List Waiter
  | [] => []
  | y :: ys => insertW y (sortW ys)

/-- `tuple_waiters_check_hikey`, src/btree/insert.c:962-990: waiters at or beyond the high key are
left out; they are sorted. -/
def belowHi (hi : Option Tup) (ws : List Waiter) : List Waiter :=
  match hi with
  | none => ws
  | some t => ws.takeWhile (fun y => decide (y.key < t.key))

/-- `o_btree_insert_item_with_waiters`, src/btree/insert.c:1209-1395, on a leaf page: the pages, and
the processes whose tuples are marked as inserted.  Their undo records are left out. -/
def putWaiters (o : Orc) (half : Int → Int → Bool) (p : Page) (e2 : Env) (csn : Option Nat)
    (off : Nat) (new : Item) (ws : List Waiter) : Out × List Nat :=
  if ws.length ≤ p.items.length ∧
      p.dataSize + (new.size + sizes (ws.map (·.2)) + 8 * (ws.length + 1)) ≤ blck then
    let ck := chunkOf p.chunks off o.chunk false
    let r := fastWaiters o (putAsIs { o with split := none } p ck.1 ck.2 new false) ws
    (.ok [r.1], r.2)
  else
    let m := mergeWaited (makeSplitItems p false e2 csn new off) half (belowHi p.hi (sortW ws))
    (if m.2.2 then doSplit o p m.1 else compact o p m.1.items, m.2.1)

/-! ## Merge of two pages -/

/-- `can_be_merged`, src/btree/merge.c:605-637. -/
def canMerge (vacL vacR : Nat) (l r : Page) (e : Env) (csn : Option Nat) : Bool :=
  let free : Int := blck - l.dataSize
  let want : Int := r.dataSize
  if free ≥ want then true
  else if !l.leaf then false
  else if free + vacL + vacR < want then false
  else decide (free + vacated e csn none 0 l.items + vacated e csn none 0 r.items ≥ want)

/-- The first item of the right page gets the high key of the left page as its key,
src/btree/merge.c:736-752. -/
def giveKey (hi : Option Tup) : List Item → List Item
  | [] => []
  | x :: xs =>
    match hi with
    | none => x :: xs
    | some t =>
      ⟨{ x.row with tup := ⟨t.key, t.klen, t.klen, x.row.tup.body⟩ },
        itemHdr false + ma t.klen⟩ :: xs

/-- `btree_page_update_max_key_len`, src/btree/page_contents.c:891-923. -/
def updateMaxKey (p : Page) : Page :=
  { p with
    maxKey := (p.items.map (fun it =>
      if p.leaf then it.row.tup.klen else it.size - itemHdr false)).foldl max p.hikeySize }

/-- `btree_try_merge_pages`, src/btree/merge.c:70-262, with `merge_pages`, 642-771: `e` are the
transactions at the check, `e2` those when the items are collected.  Links, undo images and the
parent page are left out. -/
def mergePages (o : Orc) (vacR : Nat) (l r : Page) (e e2 : Env) (csn : Option Nat) : Out :=
  if canMerge o.vac vacR l r e csn then
    let items := if l.leaf then keep true e2 csn l.items ++ keep true e2 csn r.items
      else l.items ++ giveKey l.hi r.items
    match reorg o.cutL l.leaf r.hi items with
    | none => .panic
    | some q => .ok [updateMaxKey q]
  else .ok [l, r]

end Verif.PageSplit
