/-
Reading a row in a snapshot: version chains of rows, leaf pages with their
page-level undo images, and look-ups by key.

Sources (all in /repo):
  src/btree/iterator.c          o_btree_find_tuple_by_key_cb, fetch_our_tuple_from_page,
                                fetch_tuple_from_page, o_find_tuple_version
  src/btree/undo.c              page_add_image_to_undo, get_page_from_undo,
                                reconstruct_merge_diff_half, reconstruct_split_diff,
                                page_op_drops_tuple, make_merge_undo_image,
                                row_lock_conflicts (the part that removes locks),
                                find_non_lock_only_undo_record
  src/btree/page_contents.c     o_btree_read_page (choice of the image), read_page_from_undo
  src/btree/insert.c            o_btree_insert_split (choice of the image)
  src/btree/split.c             make_split_items (dropped rows), perform_page_compaction
  src/btree/merge.c             btree_try_merge_pages (choice of the image)
  src/btree/modify.c            o_btree_modify_internal (what a change or a lock adds to a chain)

Left out: the bytes of pages (see Verif/PageChunks), the row-lock protocol in
detail (see Verif/RowLocks), how long undo records are kept (see Verif/UndoLog and
Verif/Snapshots; here an image needed by a snapshot is taken to be there),
non-leaf pages and their search (see Verif/Fastpath), concurrent reads of a page
being changed (see Verif/PageState), system trees and call-backs.
-/

namespace Verif.Visible

/-- What became of a transaction: `COMMITSEQNO_INPROGRESS`, a normal commit
sequence number, or `COMMITSEQNO_ABORTED`
(src/transam/oxid.c:2088-2142 `oxid_match_snapshot`).
Simplified: the transient state "committing", in which the reader waits, is left out. -/
inductive Status where
  | running
  | committed (csn : Nat)
  | aborted
  deriving DecidableEq, Repr

/-- One header of a version chain, `BTreeLeafTuphdr` (include/btree/page_contents.h:290-297), with
the tuple it stands for.  `oxid` and `lock` are parts of `xactInfo`, `del` is
`deleted`.  `loc` is the undo location of the header and `cid` the command which
`undo_location_get_command` (src/transam/undo.c:3583-3610) finds for it.
A lock-only header has no tuple of its own; its `val` is not used.
Simplified: the kinds of deletion are one. -/
structure Ver where
  oxid : Nat
  cid : Nat
  loc : Nat
  lock : Bool
  del : Bool
  val : Nat
  deriving DecidableEq, Repr

/-- A row of a page with the chain of its undo records, newest first: the header
on the page, then what `get_prev_leaf_header_from_undo` and
`get_prev_leaf_header_and_tuple_from_undo` read (src/btree/undo.c:2113-2134, 2158-2208). -/
abbrev Chain := List Ver

/-- The rows of a page, by key (src/btree/page_chunks.c, modelled in Verif/PageChunks; here a list ordered by key). -/
abbrev Items := List (Nat × Chain)

/-- Page-level undo records (include/btree/undo.h:40-66; src/btree/undo.c:57-141, 1619-1681).
`full` is `UndoPageImageSplit` and `UndoPageImageCompact`: a copy of the page.
`splitDiff` holds the split key and the header fields of the page before the split.
`merge` holds copies of both pages, `mergeDiff` the key between them and the header
fields of both.  The last field of each page is its own `undoLocation`. -/
inductive Hist where
  | nil
  | full (csn : Nat) (hikey : Option Nat) (items : Items) (older : Hist)
  | splitDiff (key csn : Nat) (older : Hist)
  | merge (lcsn lhikey : Nat) (litems : Items) (lolder : Hist)
      (rcsn : Nat) (rhikey : Option Nat) (ritems : Items) (rolder : Hist)
  | mergeDiff (key lcsn : Nat) (lolder : Hist) (rcsn : Nat) (rolder : Hist)
  deriving Repr

/-- A leaf page: its high key (`none` for the rightmost page), `csn`, rows and
`undoLocation` (include/btree/page_contents.h:124-154 `BTreePageHeader`).
`csn = 0` stands for `COMMITSEQNO_FROZEN`. -/
structure Leaf where
  hikey : Option Nat
  csn : Nat
  items : Items
  hist : Hist
  deriving Repr

/-- A page image in the reader's buffer (`img`, src/btree/page_contents.c:63-130). -/
structure Img where
  hikey : Option Nat
  csn : Nat
  items : Items
  deriving Repr

/-- The snapshot of a reader: the transaction of the reader, `csn` and `cid`
(`OSnapshot`, include/transam/oxid.h:66-72).  Only snapshots with a normal `csn` are
modelled; `xmin`, which is a short cut for finished transactions
(src/transam/oxid.c:2093-2100), and `xlogptr` are left out. -/
structure Snap where
  oxid : Nat
  csn : Nat
  cid : Nat
  deriving DecidableEq, Repr

/-- `tupcsn < oSnapshot->csn` for a transaction which is neither in progress nor
aborted (src/btree/iterator.c:808-823). -/
def commBefore (st : Nat → Status) (c x : Nat) : Bool :=
  match st x with
  | .committed q => decide (q < c)
  | _ => false

/-- The conditions under which the loop of `o_find_tuple_version` stops at a header
(src/btree/iterator.c:772-830): a change of the reader's own transaction made by an
earlier command, or a finished transaction whose commit precedes the snapshot.
The second test does not ask whether the header is lock-only. -/
def stopsAt (st : Nat → Status) (sn : Snap) (e : Ver) : Bool :=
  (decide (st e.oxid = .running) && !e.lock && decide (e.oxid = sn.oxid) && decide (e.cid < sn.cid))
  || commBefore st sn.csn e.oxid

/-- The tuple that belongs to the head of a chain: a lock-only header shares the
tuple of the version below it (src/btree/modify.c:1068-1082: locking changes the header
only; src/btree/iterator.c:842-846: the tuple is kept when a lock-only header is passed). -/
def tupleOf : Chain → Option Nat
  | [] => none
  | e :: t => if e.lock then tupleOf t else some e.val

/-- The loop of `o_find_tuple_version` (src/btree/iterator.c:727-860) with its
result (862-882): the first header at which it stops decides; a deleted version
gives no row. -/
def walk (st : Nat → Status) (sn : Snap) : Chain → Option Nat
  | [] => none
  | e :: t =>
    if stopsAt st sn e then (if e.del then none else tupleOf (e :: t)) else walk st sn t

/-- `find_non_lock_only_undo_record` (src/btree/undo.c:2093-2111): the chain from its
first header which is not lock-only. -/
def skipLocks : Chain → Chain
  | [] => []
  | e :: t => if e.lock then skipLocks t else e :: t

/-- `o_find_tuple_version` without call-back (src/btree/iterator.c:702-897). -/
def findVersion (st : Nat → Status) (sn : Snap) (c : Chain) : Option Nat :=
  walk st sn (skipLocks c)

/-- The row with a key on a page, `[]` if there is none
(`btree_page_search`, src/btree/find.c:2086-2118, and the comparison in
src/btree/iterator.c:648-662). -/
def get : Items → Nat → Chain
  | [], _ => []
  | (j, c) :: t, k => if j = k then c else get t k

/-- Puts a row on a page, in the order of keys (src/btree/insert.c:1579-1729
`o_btree_insert_item`; the bytes are in Verif/PageChunks). -/
def put : Items → Nat → Chain → Items
  | [], k, c => [(k, c)]
  | (j, d) :: t, k, c =>
    if k < j then (k, c) :: (j, d) :: t
    else if j = k then (k, c) :: t
    else (j, d) :: put t k c

/-- Rows left of a key and rows from a key on (src/btree/split.c:437-512 `perform_page_split`;
src/btree/undo.c:1285-1299). -/
def below (m : Nat) (its : Items) : Items := its.filter (fun p => decide (p.1 < m))

/-- See `below`. -/
def above (m : Nat) (its : Items) : Items := its.filter (fun p => !decide (p.1 < m))

/-- `get_page_from_undo` and the loop of `read_page_from_undo` around it, for a
search by key (src/btree/undo.c:1427-1575; src/btree/page_contents.c:63-130).
`img` is the page the reader holds: the live page at first, then the image found last.
A differential split keeps it and replaces the header fields
(src/btree/undo.c:1356-1422); a differential merge keeps the half with the key
(1217-1331); a full merge reads one of two pages (1545-1569).  The loop goes on while
the image is not older than the snapshot (page_contents.c:108-117).
The case `nil` is not reached: the code would read a record which is not there.
Simplified: the low key reported to scans is left out here. -/
def readUndo (c k : Nat) : Hist → Img → Img
  | .nil, img => img
  | .full csn hk its older, _ =>
    let im : Img := { hikey := hk, csn := csn, items := its }
    if c ≤ csn then readUndo c k older im else im
  | .splitDiff _ csn older, img =>
    let im : Img := { img with csn := csn }
    if c ≤ csn then readUndo c k older im else im
  | .merge lcsn lhk lits lolder rcsn rhk rits rolder, _ =>
    if lhk ≤ k then
      let im : Img := { hikey := rhk, csn := rcsn, items := rits }
      if c ≤ rcsn then readUndo c k rolder im else im
    else
      let im : Img := { hikey := some lhk, csn := lcsn, items := lits }
      if c ≤ lcsn then readUndo c k lolder im else im
  | .mergeDiff b lcsn lolder rcsn rolder, img =>
    if b ≤ k then
      let im : Img := { hikey := img.hikey, csn := rcsn, items := above b img.items }
      if c ≤ rcsn then readUndo c k rolder im else im
    else
      let im : Img := { hikey := some b, csn := lcsn, items := below b img.items }
      if c ≤ lcsn then readUndo c k lolder im else im

/-- The live page as the reader copies it (src/btree/page_contents.c:318-320). -/
def Leaf.img (p : Leaf) : Img := { hikey := p.hikey, csn := p.csn, items := p.items }

/-- Does a key belong to a page: it is below the high key
(src/btree/find.c:503-1147 `find_page`, right links are followed otherwise). -/
def Leaf.covers (p : Leaf) (k : Nat) : Bool :=
  match p.hikey with
  | none => true
  | some h => decide (k < h)

/-- The leaf page of a key (`find_page`, src/btree/find.c:503-1147; see Verif/Fastpath for
the search itself). -/
def leafOf : List Leaf → Nat → Option Leaf
  | [], _ => none
  | p :: t, k => if p.covers k then some p else leafOf t k

/-- `fetch_our_tuple_from_page` (src/btree/iterator.c:564-626): the tuple on the page
if its newest version was made by the reader's transaction.  A version which marks
the row as deleted gives the null tuple (615-620), as does a row of somebody else. -/
def fetchOur (x : Nat) (c : Chain) : Option Nat :=
  match skipLocks c with
  | [] => none
  | e :: _ => if e.oxid = x then (if e.del then none else some e.val) else none

/-- `o_btree_find_tuple_by_key_cb` without call-back (src/btree/iterator.c:206-299) on the
page found.  `haveUndo` is `have_current_undo` (src/transam/undo.c:3070-3085): has the
reader's transaction made changes.  If it has, the live page is read and, when it is
not older than the snapshot, our own version is looked for first and then the image
(262-292).  If it has not, `find_page` reads the image itself
(src/btree/page_contents.c:324-346). -/
def lookupLeaf (st : Nat → Status) (haveUndo : Bool) (sn : Snap) (k : Nat) (p : Leaf) : Option Nat :=
  if sn.csn ≤ p.csn then
    let old := findVersion st sn (get (readUndo sn.csn k p.hist p.img).items k)
    if haveUndo then
      match fetchOur sn.oxid (get p.items k) with
      | some v => some v
      | none => old
    else old
  else findVersion st sn (get p.items k)

/-- The tree and the state of transactions it is read with.  `next` is
`nextCommitSeqNo`; `loc` the end of the row-level undo log; `undo x`: has `x` undo
records; `oldest`: no snapshot with a smaller `csn` is in use or will be taken
(the undo log keeps images for the others, see Verif/Snapshots). -/
structure St where
  leaves : List Leaf
  st : Nat → Status
  next : Nat
  oldest : Nat
  loc : Nat
  undo : Nat → Bool

/-- An empty tree: one page, rightmost, frozen (src/btree/btree.c:53-68 `o_btree_init`). -/
def St.init : St :=
  { leaves := [{ hikey := none, csn := 0, items := [], hist := .nil }],
    st := fun _ => .running, next := 1, oldest := 1, loc := 1, undo := fun _ => false }

/-- `o_btree_find_tuple_by_key` (src/btree/iterator.c:670-677). -/
def St.lookup (s : St) (sn : Snap) (k : Nat) : Option Nat :=
  match leafOf s.leaves k with
  | none => none
  | some p => lookupLeaf s.st (s.undo sn.oxid) sn k p

/-- Is a transaction finished (committed or aborted)
(`XACT_INFO_IS_FINISHED`, include/btree/btree.h:484). -/
def finished (st : Nat → Status) (x : Nat) : Bool :=
  match st x with
  | .running => false
  | _ => true

/-- `row_lock_conflicts` removes the lock-only records of finished transactions from
the chain of a row before the row is changed or locked
(src/btree/undo.c:1826-1841, 1868-1907; in detail in Verif/RowLocks).
Simplified: the walk along the chain ends at its first final version without locks
below it; here all such records go. -/
def purge (st : Nat → Status) (x : Nat) (c : Chain) : Chain :=
  c.filter (fun e => !(e.lock && finished st e.oxid && decide (e.oxid ≠ x)))

/-- May transaction `x` add a version: the newest version is its own or committed
(src/btree/modify.c:505-700: otherwise the change waits for the other transaction);
a deletion also waits for the locks of others (a deletion needs the strongest lock,
which conflicts with every other; include/btree/btree.h:447 `ROW_LOCKS_CONFLICT`).
Simplified: all locks modelled are key-share locks, which conflict with deletions only. -/
def mayWrite (st : Nat → Status) (x : Nat) (del : Bool) (c : Chain) : Bool :=
  (match skipLocks c with
   | [] => true
   | e :: _ => decide (e.oxid = x) || finished st e.oxid)
  && (!del || c.all (fun e => !e.lock || decide (e.oxid = x)))

/-- May `x` put a key-share lock: neither the newest version nor any version of a
transaction still running is a deletion (a deletion holds the strongest lock, for which
the locker waits: src/btree/undo.c:1860-1875; a deleted row is not found:
src/btree/modify.c:349-434), and there is a version the locker can see. -/
def mayLock (st : Nat → Status) (x : Nat) : Chain → Bool
  | [] => false
  | e :: t =>
    if e.lock then mayLock st x t
    else !e.del && (decide (e.oxid = x) || finished st e.oxid || mayLock st x t)

/-- Changes the leaf page of a key, found and locked by `find_page`
(src/btree/find.c:503-1147). -/
def onLeaf (k : Nat) (f : Leaf → Leaf) : List Leaf → List Leaf
  | [] => []
  | p :: t => if p.covers k then f p :: t else p :: onLeaf k f t

/-- Replaces the chain of a row on a page (src/btree/modify.c:853-905, 1068-1082). -/
def Leaf.setRow (k : Nat) (c : Chain) (p : Leaf) : Leaf :=
  { p with items := put p.items k c }

/-- The chain of a row on its live page (src/btree/modify.c:498-502). -/
def St.row (s : St) (k : Nat) : Chain :=
  match leafOf s.leaves k with
  | none => []
  | some p => get p.items k

/-- Records of transaction `x` from undo location `m` on: those on the undo stack of the
transaction above the location (src/transam/undo.c:1499-1504 `apply_undo_stack`). -/
def undone (x m : Nat) (e : Ver) : Bool := decide (e.oxid = x) && decide (m ≤ e.loc)

/-- Rolls back the changes and locks of `x` from location `m` on, on all live pages;
a row without versions left is removed
(src/btree/undo.c:143-317 `page_item_rollback`, 517-760; in detail in Verif/RowLocks).
Page images are not changed.  Simplified: done at once.  The undo records below the
header are shared between a page and its images, so in the code a record taken out
of the middle of a chain disappears from the images as well; here images keep it. -/
def Leaf.rollback (x m : Nat) (p : Leaf) : Leaf :=
  let its := p.items.map (fun r => (r.1, r.2.filter (fun e => !undone x m e)))
  { p with items := its.filter (fun r => !r.2.isEmpty) }

/-- Is a row dropped by a split, merge or compaction done with `csn`: it is marked as
deleted by a transaction finished for everybody (`fin`: oxids below are) and committed
before `csn` (src/btree/split.c:76-92, src/btree/undo.c:1589-1610). -/
def drops (st : Nat → Status) (fin csn : Nat) (c : Chain) : Bool :=
  match c with
  | [] => false
  | e :: _ => e.del && decide (e.oxid < fin) && commBefore st csn e.oxid

/-- Rows kept by a split, merge or compaction (src/btree/split.c:76-98). -/
def kept (st : Nat → Status) (fin csn : Nat) (its : Items) : Items :=
  its.filter (fun r => !drops st fin csn r.2)

/-- `page_op_drops_tuple` (src/btree/undo.c:1589-1610). -/
def anyDrop (st : Nat → Status) (fin csn : Nat) (its : Items) : Bool :=
  its.any (fun r => drops st fin csn r.2)

/-- `noRetainedReader` (src/btree/insert.c:861-867, src/btree/merge.c:175-185): the page
has no undo image, or one which no snapshot needs any more.  `free`: whether the undo
log has in fact let go of the image, which it does only then. -/
def noReader (oldest : Nat) (free : Bool) (p : Leaf) : Bool :=
  match p.hist with
  | .nil => true
  | _ => free && decide (p.csn < oldest)

/-- The header fields `csn` and `undoLocation` after a split
(src/btree/insert.c:859-884 and src/btree/undo.c:57-141): frozen without an image if
nobody can need one, a differential image if no row is dropped and no sequential
scan (`seq`) is active, a full image otherwise. -/
def splitHist (s : St) (m fin : Nat) (seq free : Bool) (p : Leaf) : Nat × Hist :=
  if anyDrop s.st fin s.next p.items || seq then
    (s.next, .full p.csn p.hikey p.items p.hist)
  else if noReader s.oldest free p then (0, .nil)
  else (s.next, .splitDiff m p.csn p.hist)

/-- A split at key `m` (src/btree/split.c:437-512 `perform_page_split`, src/btree/insert.c:800-905).
Simplified: the row being inserted, which the code puts on one of the halves in the
same step, is inserted by a separate step. -/
def splitLeaf (s : St) (m fin : Nat) (seq free : Bool) (p : Leaf) : List Leaf :=
  let h := splitHist s m fin seq free p
  let its := kept s.st fin s.next p.items
  [{ hikey := some m, csn := h.1, items := below m its, hist := h.2 },
   { hikey := p.hikey, csn := h.1, items := above m its, hist := h.2 }]

/-- A compaction: a full image always (src/btree/split.c:118-153, src/btree/undo.c:122-131). -/
def compactLeaf (s : St) (fin : Nat) (p : Leaf) : Leaf :=
  { p with
    csn := s.next
    items := kept s.st fin s.next p.items
    hist := .full p.csn p.hikey p.items p.hist }

/-- The header fields after a merge (src/btree/merge.c:171-207, src/btree/undo.c:1619-1681). -/
def mergeHist (s : St) (b fin : Nat) (seq free : Bool) (p q : Leaf) : Nat × Hist :=
  if anyDrop s.st fin s.next p.items || anyDrop s.st fin s.next q.items then
    (s.next, .merge p.csn b p.items p.hist q.csn q.hikey q.items q.hist)
  else if noReader s.oldest free p && noReader s.oldest free q && !seq then (0, .nil)
  else (s.next, .mergeDiff b p.csn p.hist q.csn q.hist)

/-- A merge of two neighbours (src/btree/merge.c:109-222, 642-771 `merge_pages`). -/
def mergeLeaf (s : St) (b fin : Nat) (seq free : Bool) (p q : Leaf) : Leaf :=
  let h := mergeHist s b fin seq free p q
  { hikey := q.hikey, csn := h.1,
    items := kept s.st fin s.next (p.items ++ q.items), hist := h.2 }

/-- Splits the page of key `m` (src/btree/insert.c:800-905), unless `m` is its low key `lo` (a half would be empty of keys). -/
def splitAt (s : St) (m fin : Nat) (seq free : Bool) : Nat → List Leaf → List Leaf
  | _, [] => []
  | lo, p :: t =>
    if p.covers m then (if lo < m then splitLeaf s m fin seq free p ++ t else p :: t)
    else p :: splitAt s m fin seq free (p.hikey.getD 0) t

/-- Merges the page with high key `b` with its right neighbour
(src/btree/merge.c:70-222). -/
def mergeAt (s : St) (b fin : Nat) (seq free : Bool) : List Leaf → List Leaf
  | p :: q :: t =>
    if p.hikey = some b then mergeLeaf s b fin seq free p q :: t
    else p :: mergeAt s b fin seq free (q :: t)
  | l => l

/-- The steps of the model, see `St.step` for their sources.  `write`: insert, update or delete of a row;
`lock`: a key-share lock; `rollbackTo`: the changes of `x` from an undo location on
are undone (ROLLBACK TO SAVEPOINT); `forget`: snapshots older than `m` are gone. -/
inductive Op where
  | write (x k cid : Nat) (del : Bool) (v : Nat)
  | lock (x k cid : Nat)
  | commit (x : Nat)
  | abort (x : Nat)
  | rollbackTo (x m : Nat)
  | split (m fin : Nat) (seq free : Bool)
  | compact (k fin : Nat)
  | merge (b fin : Nat) (seq free : Bool)
  | forget (m : Nat)
  deriving Repr

/-- What happened, as the specification needs it; no counterpart in the code. -/
inductive Ev where
  | wrote (x k cid loc : Nat) (del : Bool) (v : Nat)
  | undid (x m : Nat)
  | committed (x csn : Nat)
  deriving DecidableEq, Repr

/-- Sets the status of a transaction (src/transam/oxid.c:772-814 `set_oxid_csn`). -/
def setSt (st : Nat → Status) (x : Nat) (v : Status) : Nat → Status :=
  fun y => if y = x then v else st y

/-- One step; a step which is not allowed changes nothing.
`write` and `lock`: src/btree/modify.c:130-434, 852-1089; `commit`: src/transam/undo.c:2679
`current_oxid_commit`; `abort`: src/transam/undo.c:2751-2761 (changes are undone, then the
status is set); `rollbackTo`: src/transam/undo.c:2921-2958 `rollback_to_savepoint`. -/
def St.step (s : St) : Op → St × Option Ev
  | .write x k cid del v =>
    let c := purge s.st x (s.row k)
    if s.st x = .running ∧ mayWrite s.st x del c = true then
      let e : Ver := { oxid := x, cid := cid, loc := s.loc, lock := false, del := del, val := v }
      ({ s with
         leaves := onLeaf k (Leaf.setRow k (e :: c)) s.leaves
         loc := s.loc + 1
         undo := fun y => if y = x then true else s.undo y },
       some (.wrote x k cid s.loc del v))
    else (s, none)
  | .lock x k cid =>
    let c := purge s.st x (s.row k)
    if s.st x = .running ∧ mayLock s.st x c = true then
      let e : Ver := { oxid := x, cid := cid, loc := s.loc, lock := true, del := false, val := 0 }
      ({ s with
         leaves := onLeaf k (Leaf.setRow k (e :: c)) s.leaves
         loc := s.loc + 1
         undo := fun y => if y = x then true else s.undo y },
       none)
    else (s, none)
  | .commit x =>
    if s.st x = .running then
      ({ s with
         st := setSt s.st x (.committed s.next)
         next := s.next + 1 },
       some (.committed x s.next))
    else (s, none)
  | .abort x =>
    if s.st x = .running then
      ({ s with
         leaves := s.leaves.map (Leaf.rollback x 0)
         st := setSt s.st x .aborted },
       some (.undid x 0))
    else (s, none)
  | .rollbackTo x m =>
    if s.st x = .running then
      ({ s with leaves := s.leaves.map (Leaf.rollback x m) }, some (.undid x m))
    else (s, none)
  | .split m fin seq free =>
    ({ s with
       leaves := splitAt s m fin seq free 0 s.leaves
       next := s.next + 1 }, none)
  | .compact k fin =>
    ({ s with
       leaves := onLeaf k (compactLeaf s fin) s.leaves
       next := s.next + 1 }, none)
  | .merge b fin seq free =>
    ({ s with
       leaves := mergeAt s b fin seq free s.leaves
       next := s.next + 1 }, none)
  | .forget m =>
    ({ s with oldest := if s.oldest < m ∧ m ≤ s.next then m else s.oldest }, none)

/-- A run: steps one after another; no counterpart in the code. -/
def St.run (s : St) : List Op → St
  | [] => s
  | o :: t => (s.step o).1.run t

/-- What happened during a run, oldest first; no counterpart in the code. -/
def St.trace (s : St) : List Op → List Ev
  | [] => []
  | o :: t => (s.step o).2.toList ++ (s.step o).1.trace t

/-- A step is regular if a transaction does not change a row again while the lock of
another transaction lies on its earlier change; such changes lead to the case
`C71_dirty_read_violated`.  No counterpart in the code. -/
def St.regular (s : St) : Op → Bool
  | .write x k _ _ _ =>
    let c := purge s.st x (s.row k)
    match skipLocks c with
    | [] => true
    | e :: _ => decide (e.oxid ≠ x) || (c.takeWhile (fun f => f.lock)).all (fun f => decide (f.oxid = x))
  | _ => true

/-- All steps of a run are regular; no counterpart in the code. -/
def St.regularRun (s : St) : List Op → Bool
  | [] => true
  | o :: t => s.regular o && (s.step o).1.regularRun t

end Verif.Visible
