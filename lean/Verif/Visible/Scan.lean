/-
Range scans: the iterator of a reader which has made no changes of its own, forward
direction.

Source: src/btree/iterator.c (o_btree_iterator_create, o_btree_iterator_fetch,
o_btree_iterator_fetch_internal, btree_iterator_check_load_next_page,
page_contains_end, iterator_refind_partial_leaf), src/btree/find.c (find_right_page),
src/btree/page_contents.c (o_btree_read_page).

Left out: backward scans; readers with changes of their own, for which the iterator
merges the live page with its image (`combinedResult`); lists of keys
(o_btree_iterator_advance); the short cut of find_right_page through the parent page,
which finds the page whose low key is the high key of the page left behind
(src/btree/find.c:1582-1635).
-/
import Verif.Visible.Model

namespace Verif.Visible

/-- The end of a scan: a key and whether it is included
(`BtreeIterationEnd`, src/btree/iterator.c:129-134, 1285-1296). -/
structure Bound where
  key : Nat
  incl : Bool
  deriving DecidableEq, Repr

/-- Has the scan gone past its end with this row (src/btree/iterator.c:1303-1310). -/
def pastEnd (e : Option Bound) (k : Nat) : Bool :=
  match e with
  | none => false
  | some b => if b.incl then decide (b.key < k) else decide (b.key ≤ k)

/-- `page_contains_end` (src/btree/iterator.c:1801-1820): the scan ends on a page with
high key `h`. -/
def endOnPage (e : Option Bound) (h : Nat) : Bool :=
  match e with
  | none => false
  | some b => decide (b.key < h) || (decide (b.key = h) && !b.incl)

/-- The page image `find_page` reads for a snapshot with key `k`
(`o_btree_read_page`, src/btree/page_contents.c:259-346). -/
def St.image (s : St) (c k : Nat) : Option Img :=
  (leafOf s.leaves k).map (fun p => if c ≤ p.csn then readUndo c k p.hist p.img else p.img)

/-- The iterator (`BTreeIterator`, src/btree/iterator.c:55-123): the rows of the page image
not yet read, the high key of the image, the key to re-find the position with and
whether its row was handled (`curKey`, `curKeyReturned`).  `pos`, the key up to which the
scan has got, and the rows returned (`out`) are kept for the statements only. -/
structure Scan where
  pos : Nat
  cur : Option (Nat × Bool)
  buf : Items
  hikey : Option Nat
  done : Bool
  out : List (Nat × Nat)

/-- Reads the image found with key `b` and goes to its first row from `f` on
(src/btree/find.c:504-1147 `find_page` and 2087-2118 `btree_page_search`). -/
def Scan.load (s : St) (c b f : Nat) (sc : Scan) : Scan :=
  match s.image c b with
  | none => sc
  | some im =>
    { sc with
      pos := f
      buf := above f im.items
      hikey := im.hikey }

/-- `o_btree_iterator_create` with start key `a` (src/btree/iterator.c:940-1056); the key to
re-find the position with is the first one on the page (1039-1053). -/
def Scan.start (s : St) (sn : Snap) (a : Nat) : Scan :=
  let sc := Scan.load s sn.csn a a
    { pos := a, cur := none, buf := [], hikey := none, done := false, out := [] }
  { sc with cur := sc.buf.head?.map (fun r => (r.1, false)) }

/-- One turn of the loop of `o_btree_iterator_fetch_internal`
(src/btree/iterator.c:1661-1775, the part without `combinedPage`) with the check of the
end in `o_btree_iterator_fetch` (1303-1329) and the step to the next page in
`btree_iterator_check_load_next_page` (1841-1955).  The version is looked for with the
transactions as they are at this moment. -/
def Scan.fetch (s : St) (sn : Snap) (e : Option Bound) (sc : Scan) : Scan :=
  if sc.done then sc
  else
    match sc.buf with
    | (k, c) :: t =>
      match findVersion s.st sn c with
      | none => { sc with pos := k + 1, cur := some (k, true), buf := t }
      | some v =>
        if pastEnd e k then { sc with done := true }
        else { sc with pos := k + 1, cur := some (k, true), buf := t, out := sc.out ++ [(k, v)] }
    | [] =>
      match sc.hikey with
      | none => { sc with done := true }
      | some h =>
        if endOnPage e h then { sc with done := true }
        else Scan.load s sn.csn h h sc

/-- `iterator_refind_partial_leaf` (src/btree/iterator.c:1480-1598): the page has changed
while it was being read in parts; the position is found again. -/
def Scan.refind (s : St) (sn : Snap) (a : Nat) (sc : Scan) : Scan :=
  if sc.done then sc
  else
    match sc.cur with
    | none => Scan.load s sn.csn a a sc
    | some (k, ret) => Scan.load s sn.csn k (if ret then k + 1 else k) sc

/-- What happens during a scan: a step of a transaction or of a page, a turn of the
scan, the position is found again.  No counterpart in the code. -/
inductive SEv where
  | op (o : Op)
  | fetch
  | refind

/-- A scan and what goes on meanwhile; no counterpart in the code. -/
def scanRun (sn : Snap) (a : Nat) (e : Option Bound) : List SEv → St → Scan → St × Scan
  | [], s, sc => (s, sc)
  | .op o :: t, s, sc => scanRun sn a e t (s.step o).1 sc
  | .fetch :: t, s, sc => scanRun sn a e t s (sc.fetch s sn e)
  | .refind :: t, s, sc => scanRun sn a e t s (sc.refind s sn a)

/-- The steps of transactions and pages; no counterpart in the code. -/
def opsOf : List SEv → List Op
  | [] => []
  | .op o :: t => o :: opsOf t
  | .fetch :: t => opsOf t
  | .refind :: t => opsOf t

/-- The transaction that takes a step; no counterpart in the code. -/
def Op.by : Op → Option Nat
  | .write x _ _ _ _ => some x
  | .lock x _ _ => some x
  | .commit x => some x
  | .abort x => some x
  | .rollbackTo x _ => some x
  | _ => none

/-- Going back in time from a page with high key `m`, no differential merge with a
boundary right of `m` is met before a full image; no counterpart in the code. -/
def fits (m : Nat) : Hist → Bool
  | .nil => true
  | .full _ _ _ _ => true
  | .splitDiff _ _ older => fits m older
  | .merge _ _ _ _ _ _ _ _ => true
  | .mergeDiff b _ _ _ rolder => decide (b ≤ m) && fits m rolder

/-- A step is steady if it is not a split, with a differential image, left of the
boundary of an earlier merge which is recorded by a differential image too; such splits
lead to the case `C72_skipped_rows_violated`.  No counterpart in the code. -/
def St.steady (s : St) : Op → Bool
  | .split m fin seq free =>
    match leafOf s.leaves m with
    | none => true
    | some p =>
      match (splitHist s m fin seq free p).2 with
      | .splitDiff _ _ _ => fits m p.hist
      | _ => true
  | _ => true

/-- All steps of a run are steady; no counterpart in the code. -/
def St.steadyRun (s : St) : List Op → Bool
  | [] => true
  | o :: t => s.steady o && (s.step o).1.steadyRun t

end Verif.Visible
