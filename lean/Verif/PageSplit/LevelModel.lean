import Verif.PageSplit.Model

/-!
# The leaf level of an index: model

The leaf pages of an index from left to right, the transactions that have finished, and the
operations of transactions on rows.  Waiting for other transactions is not modelled: an operation
that would have to wait does nothing.
-/

namespace Verif.PageSplit

/-- The leaf pages from left to right, the transactions finished with their CSN, and the next CSN.
Pages: include/btree/page_contents.h:124-154. -/
structure Lev where
  pages : List Page
  com : Env
  next : Nat

/-- A new index has one leaf page, its root (its creation is not modelled).
`init_new_btree_page`, src/btree/page_contents.c:417-418. -/
def Lev.init : Lev := ⟨[Page.empty true], fun _ => none, 1⟩

/-- The transactions known to be finished for everybody at some moment are some of those finished,
`XACT_INFO_FINISHED_FOR_EVERYBODY`, include/btree/btree.h:486-487. -/
def Env.only (com : Env) (l : List Nat) : Env := fun x => if x ∈ l then com x else none

/-- The operations.  `o` and the lists stand for what is not modelled; `csn` is `none`
(`COMMITSEQNO_INPROGRESS`) or what the next CSN has become meanwhile.
Insertion and update: src/btree/insert.c:1579-1763; deletion and locks: src/btree/modify.c;
undoing: src/btree/undo.c:153-318; merging: src/btree/merge.c:70-262. -/
inductive Op where
  /-- transaction `x` inserts or updates -/
  | put (o : Orc) (x : Nat) (t : Tup) (l1 l2 : List Nat) (csn : Option Nat)
  /-- the same, with tuples of waiting processes: process, transaction, tuple -/
  | putAll (o : Orc) (half : Int → Int → Bool) (x : Nat) (t : Tup) (ws : List (Nat × Nat × Tup))
      (l2 : List Nat) (csn : Option Nat)
  | del (x k : Nat)
  | lock (x k : Nat)
  | unlock (x k : Nat)
  /-- the last change of `x` to the row is undone -/
  | undo (x k : Nat)
  /-- `x` commits, or its abort ends -/
  | finish (x : Nat)
  | merge (o : Orc) (vacR i : Nat) (l1 l2 : List Nat) (csn : Option Nat)

/-- What an operation comes to.
As `Out`: src/btree/page_chunks.c:1273-1283, src/btree/split.c:323-346,
src/btree/undo.c:234-244. -/
inductive LOut where
  | ok (s : Lev)
  | panic
  | undef
  | over

/-- The page for a key, as found by the descent: the first whose high key is greater.
`find_page`, src/btree/find.c:504, not modelled further. -/
def pageFor (k : Nat) (ps : List Page) : Nat :=
  ps.findIdx (fun p => p.hi.all (fun t => decide (k < t.key)))

/-- The pages in place of page `i`.  src/btree/insert.c:829-912. -/
def Lev.sub (s : Lev) (i : Nat) : Out → LOut
  | .ok qs => .ok { s with pages := s.pages.take i ++ qs ++ s.pages.drop (i + 1) }
  | .panic => .panic
  | .undef => .undef
  | .over => .over

/-- `x` may change the row: its last change is finished or its own
(`o_btree_modify_handle_conflicts`, src/btree/modify.c:488-732: waits or reports otherwise). -/
def canChange (com : Env) (x : Nat) (r : Row) : Bool :=
  match r.chain.dropWhile Rec.isLock with
  | [] => true
  | c :: _ => c.xid == x || com.fin c.xid

/-- `x` may delete the row: nobody else holds a lock.
`o_btree_modify_handle_conflicts`, src/btree/modify.c:488-732. -/
def canDelete (com : Env) (x : Nat) (r : Row) : Bool :=
  canChange com x r && r.chain.all (fun c => c.xid == x || com.fin c.xid || !c.isLock)

/-- `x` may lock the row: it sees it.  An update does not prevent that a weak lock is taken
(`row_lock_conflicts`, src/btree/undo.c:1746-1994; lock modes are not modelled). -/
def canLock (com : Env) (x : Nat) (r : Row) : Bool :=
  !r.deleted &&
  match r.chain.dropWhile Rec.isLock with
  | [] => true
  | c :: _ => c.xid == x || com.fin c.xid || (match c.act with | .upd _ _ => true | _ => false)

/-- The row with the key is changed where it is, or removed
(`page_locator_delete_item`, src/btree/page_chunks.c:784-860; a chunk left empty is kept here, in
the code it is merged with its neighbour, 846-859, which takes the same room). -/
def Page.change (k : Nat) (f : Item → Option Item) (p : Page) : Page :=
  { p with
    chunks := p.chunks.map (fun c => c.filterMap (fun x => if x.row.tup.key = k then f x else some x)) }

/-- The row with the key.  The search is not modelled here; src/btree/find.c:2086-2118. -/
def Lev.find (s : Lev) (k : Nat) : Option Item :=
  ((s.pages.map Page.items).flatten).find? (fun x => x.row.tup.key == k)

/-- The same on all pages; only the one with the key changes.
src/btree/modify.c:488-732 leads to the row. -/
def Lev.change (s : Lev) (k : Nat) (f : Item → Option Item) : Lev :=
  { s with pages := s.pages.map (Page.change k f) }

/-- The header before is finished, `XACT_INFO_IS_FINISHED(prev_header.xactInfo)`,
src/btree/undo.c:245. -/
def finBefore (com : Env) : List Rec → Bool
  | [] => true
  | c :: _ => com.fin c.xid

/-- What becomes of a row whose first header that is not a lock is undone,
`page_item_rollback`, src/btree/undo.c:153-318 with `wholeChain` false: `none` if bytes are written
beyond the item (234-244 and 2202-2209), otherwise the item or nothing.  The item is cut if the
header before is finished (245-250).  The locks above stay (259-271). -/
def undoItem (bridge : Bool) (com : Env) (x : Nat) (it : Item) : Option (Option Item) :=
  match it.row.chain.dropWhile Rec.isLock with
  | [] => some (some it)
  | r :: rest =>
    if r.xid = x ∧ com.fin x = false then
      let ch := it.row.chain.takeWhile Rec.isLock ++ rest
      match r.act with
      | .ins => some (if bridge then some { it with row := { it.row with deleted := true } } else none)
      | .del => some (some { it with row := { it.row with deleted := false, chain := ch } })
      | .upd old d =>
        if it.size < need true old then none
        else some (some ⟨⟨old, d, ch⟩,
          if finBefore com rest then need true old else it.size⟩)
      | .lock => some (some it)
    else some (some it)

/-- The new row of `put`, given the row that is there.
src/btree/insert.c:1453-1498; the header is made by the callers in src/btree/modify.c. -/
def newRow (x : Nat) (t : Tup) : Option Item → Row
  | none => ⟨t, false, [⟨x, .ins⟩]⟩
  | some it => ⟨t, false, ⟨x, .upd it.row.tup it.row.deleted⟩ :: it.row.chain⟩

/-- The row at a place, if it has the key.  src/btree/find.c:2086-2118. -/
def rowAt (p : Page) (k off : Nat) : Option Item :=
  (p.items[off]?).filter (fun it => it.row.tup.key == k)

/-- `o_btree_insert_item`, src/btree/insert.c:1579-1763, on a leaf page without waiters. -/
def stepPut (bridge : Bool) (s : Lev) (o : Orc) (x : Nat) (t : Tup) (l1 l2 : List Nat)
    (csn : Option Nat) : LOut :=
  match s.pages[pageFor t.key s.pages]? with
  | none => .ok s
  | some p =>
    let off := lower t.key p.items
    let old := rowAt p t.key off
    if (old.all (fun it => canChange s.com x it.row)) = true then
      s.sub (pageFor t.key s.pages) (putItem bridge o p (s.com.only l1) (s.com.only (l1 ++ l2)) s.next
        (csn.map (· + s.next)) off ⟨newRow x t old, need true t⟩ old.isSome)
    else .ok s

/-- A waiter as the model of `putWaiters` wants it.  src/btree/insert.c:428-434. -/
def mkWaiter (w : Nat × Nat × Tup) : Waiter :=
  (w.1, ⟨newRow w.2.1 w.2.2 none, need true w.2.2⟩)

/-- `o_btree_insert_item_with_waiters`, src/btree/insert.c:1209-1395.  The waiters queued at this page
or at a page it was split from, so their keys are not left of it. -/
def putAllAt (s : Lev) (o : Orc) (half : Int → Int → Bool) (x : Nat) (t : Tup)
    (ws : List (Nat × Nat × Tup)) (l2 : List Nat) (csn : Option Nat) : Option (Out × List Nat) :=
  match s.pages[pageFor t.key s.pages]? with
  | none => none
  | some p =>
    let off := lower t.key p.items
    if ((rowAt p t.key off).isSome ||
        !ws.all (fun w => decide (pageFor t.key s.pages ≤ pageFor w.2.2.key s.pages))) = true then none
    else
      some (putWaiters o half p (s.com.only l2) (csn.map (· + s.next)) off
        ⟨newRow x t none, need true t⟩ (ws.map mkWaiter))

/-- The level after that; waiters are served if the key is new (src/btree/insert.c:1697-1710). -/
def stepPutAll (s : Lev) (o : Orc) (half : Int → Int → Bool) (x : Nat) (t : Tup)
    (ws : List (Nat × Nat × Tup)) (l2 : List Nat) (csn : Option Nat) : LOut :=
  match putAllAt s o half x t ws l2 csn with
  | none => .ok s
  | some r => s.sub (pageFor t.key s.pages) r.1

/-- The processes told that their tuples were inserted, `mark_waiter_tuples_inserted`,
src/btree/page_state.c:897-908, called at src/btree/insert.c:909 and 1380; in the fast path the
flag is set by the loop, src/btree/insert.c:1253-1310. -/
def toldInserted (s : Lev) (o : Orc) (half : Int → Int → Bool) (x : Nat) (t : Tup)
    (ws : List (Nat × Nat × Tup)) (l2 : List Nat) (csn : Option Nat) : List Nat :=
  match putAllAt s o half x t ws l2 csn with
  | none => []
  | some r => r.2

/-- One operation.  The lines are given at the functions above and at `Op`. -/
def Lev.step (bridge : Bool) (s : Lev) : Op → LOut
  | .put o x t l1 l2 csn => if s.com.fin x then .ok s else stepPut bridge s o x t l1 l2 csn
  | .putAll o half x t ws l2 csn =>
    if s.com.fin x then .ok s else stepPutAll s o half x t ws l2 csn
  | .del x k =>
    if (s.com.fin x || !(s.find k).any (fun it => !it.row.deleted && canDelete s.com x it.row)) = true
    then .ok s
    else .ok (s.change k (fun it =>
      some { it with row := { it.row with deleted := true, chain := ⟨x, .del⟩ :: it.row.chain } }))
  | .lock x k =>
    if (s.com.fin x || !(s.find k).any (fun it => canLock s.com x it.row)) = true then .ok s
    else .ok (s.change k (fun it =>
      some { it with row := { it.row with chain := ⟨x, .lock⟩ :: it.row.chain } }))
  | .unlock x k =>
    .ok (s.change k (fun it =>
      some { it with row := { it.row with chain := it.row.chain.erase ⟨x, .lock⟩ } }))
  | .undo x k =>
    match s.find k with
    | none => .ok s
    | some it =>
      match undoItem bridge s.com x it with
      | none => .over
      | some r => .ok (s.change k (fun _ => r))
  | .finish x =>
    if s.com.fin x then .ok s
    else .ok { s with com := fun y => if y = x then some s.next else s.com y, next := s.next + 1 }
  | .merge o vacR i l1 l2 csn =>
    match s.pages[i]?, s.pages[i + 1]? with
    | some l, some r =>
      match mergePages o vacR l r (s.com.only l1) (s.com.only (l1 ++ l2)) (csn.map (· + s.next)) with
      | .ok qs => .ok { s with pages := s.pages.take i ++ qs ++ s.pages.drop (i + 2) }
      | .panic => .panic
      | .undef => .undef
      | .over => .over
    | _, _ => .ok s

/-- Operations one after another; the first failure ends it.
Auxiliary of the model, without counterpart in /repo. -/
def Lev.run (bridge : Bool) : List Op → Lev → LOut
  | [], s => .ok s
  | op :: ops, s =>
    match s.step bridge op with
    | .ok s' => Lev.run bridge ops s'
    | r => r

end Verif.PageSplit
