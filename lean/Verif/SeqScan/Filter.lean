import Verif.SeqScan.Sort

/-!
# Sequential scans: the filter by a range of keys

A parallel index scan which need not keep the order is a sequential scan with a range of keys.  Here is the
part of one participant who takes all downlinks (no workers could be started, or they have nothing to do).

Keys are numbers, both bounds of the range belong to it.  What an iterator returns is checked again by the
executor; leaves read by an iterator are left out.
-/

namespace Verif.SeqScan.Filter

/-- A leaf: its place on the disk (`none`: in memory), the bounds of its downlink, and the keys of the rows
the snapshot sees. -/
structure Leaf where
  place : Option Nat
  low : Option Nat
  high : Option Nat
  rows : List Nat
deriving DecidableEq, Repr

/-- The downlink is before the range.  `check_downlink_in_scan_range`: src/btree/scan.c:1515-1524; for leaves
read from the disk: 2292-2305. -/
def Leaf.before (lo : Nat) (l : Leaf) : Bool :=
  match l.high with
  | none => false
  | some h => decide (h < lo)

/-- The downlink is past the range.  `check_downlink_in_scan_range`: src/btree/scan.c:1526-1535. -/
def Leaf.past (hi : Nat) (l : Leaf) : Bool :=
  match l.low with
  | none => false
  | some a => decide (hi < a)

/-- The whole leaf is in the range.  `page_fully_in_scan_range`: src/btree/scan.c:1562-1597 (both sides of
the range are bounded here). -/
def Leaf.fully (lo hi : Nat) (l : Leaf) : Bool :=
  (match l.low with | none => false | some a => decide (lo ≤ a)) &&
  (match l.high with | none => false | some h => decide (h ≤ hi))

/-- The rows of a leaf one by one, and whether the scan is finished by one past the range.
`tuple_in_scan_range` (`entered` is `enteredRange`): src/btree/scan.c:1614-1666;
`btree_seq_scan_getnext_internal`: 3016-3036. -/
def emit (lo hi : Nat) (entered : Bool) : List Nat → List Nat × Bool
  | [] => ([], false)
  | k :: ks =>
    if !entered && decide (k < lo) then emit lo hi false ks
    else if hi < k then ([], true)
    else let r := emit lo hi true ks; (k :: r.1, r.2)

/-- The rows returned of a leaf, and whether the scan is finished.  `pageFullyInRange`:
src/btree/scan.c:2066-2069, 3018. -/
def page (lo hi : Nat) (l : Leaf) : List Nat × Bool :=
  if l.fully lo hi then (l.rows, false) else emit lo hi false l.rows

/-- The walk over the downlinks: the rows of the leaves in memory, the downlinks to the disk, and whether the
scan is finished.  `iterate_internal_page`: src/btree/scan.c:2009-2131. -/
def inMemory (lo hi : Nat) : List Leaf → List Nat × List Leaf × Bool
  | [] => ([], [], false)
  | l :: ls =>
    if l.before lo then inMemory lo hi ls
    else if l.past hi then ([], [], false)
    else match l.place with
      | some _ => let r := inMemory lo hi ls; (r.1, l :: r.2.1, r.2.2)
      | none =>
        let p := page lo hi l
        if p.2 then (p.1, [], true)
        else let r := inMemory lo hi ls; (p.1 ++ r.1, r.2.1, r.2.2)

/-- The leaves on the disk.  `load_next_disk_leaf_page`: src/btree/scan.c:2244-2327. -/
def onDisk (lo hi : Nat) : List Leaf → List Nat
  | [] => []
  | l :: ls =>
    if l.before lo then onDisk lo hi ls
    else
      let p := page lo hi l
      if p.2 then p.1 else p.1 ++ onDisk lo hi ls

/-- The order of the leaves on the disk.  `cmp_downlinks`: src/btree/scan.c:797-809. -/
def le (a b : Leaf) : Bool := decide (a.place.getD 0 ≤ b.place.getD 0)

/-- The scan without order.  `btree_seq_scan_getnext_internal`: src/btree/scan.c:2961-2990. -/
def scan (lo hi : Nat) (ls : List Leaf) : List Nat :=
  let r := inMemory lo hi ls
  if r.2.2 then r.1 else r.1 ++ onDisk lo hi (sort le r.2.1)

/-- The scan in order (forward): the leaves on the disk are read in their turn.
src/btree/scan.c:2103-2126. -/
def ordered (lo hi : Nat) : List Leaf → List Nat
  | [] => []
  | l :: ls =>
    if l.before lo then ordered lo hi ls
    else if l.past hi then []
    else
      let p := page lo hi l
      if p.2 then p.1 else p.1 ++ ordered lo hi ls

/-- The leaves of a tree, from a key on: they follow each other, and the rows of each are between its bounds,
in order. -/
def Tree (lo : Option Nat) : List Leaf → Prop
  | [] => True
  | l :: ls =>
    l.low = lo ∧ (∀ k ∈ l.rows, (∀ a, l.low = some a → a ≤ k) ∧ (∀ h, l.high = some h → k < h)) ∧
    l.rows.Pairwise (· < ·) ∧ (∀ a h, l.low = some a → l.high = some h → a < h) ∧
    (ls ≠ [] → ∃ h, l.high = some h) ∧ Tree l.high ls

end Verif.SeqScan.Filter
