/-!
# Sequential scans: the rows of one leaf

A leaf page which is newer than the snapshot is read together with its historical images: the rows are
taken from these, but what the transaction has changed itself is taken from the page.

Keys are numbers.  The historical images are one list: those of the snapshot's time, from the low key of the
leaf on (`load_first_historical_page`, `load_next_historical_page`: src/btree/scan.c:398-507).  Which version
of an item is visible (`o_find_tuple_version`) is given with the item.
-/

namespace Verif.SeqScan.Merge

/-- An item of the page: its key, its visible version (`none`: none is visible), and whether the last change
(not counting locks) is one of the own transaction. -/
structure Live where
  key : Nat
  ver : Option Nat
  own : Bool
deriving DecidableEq, Repr

/-- An item of a historical image. -/
structure Hist where
  key : Nat
  ver : Option Nat
deriving DecidableEq, Repr

/-- A row returned, if there is one. -/
def row (k : Nat) (v : Option Nat) : List (Nat × Nat) :=
  match v with
  | none => []
  | some x => [(k, x)]

/-- Where the walk over the page begins.  `seq_leaf_locator_start`: src/btree/scan.c:1708-1715. -/
def start (fwd : Bool) (l : List Live) : Option Nat :=
  if fwd then (if l = [] then none else some 0) else (if l = [] then none else some (l.length - 1))

/-- The item behind another one; `none`: not valid.  `BTREE_PAGE_LOCATOR_NEXT`. -/
def next (l : List Live) (i : Nat) : Option Nat := if i + 1 < l.length then some (i + 1) else none

/-- The next item in the direction of the scan.  `seq_leaf_locator_advance`: src/btree/scan.c:1718-1725. -/
def advance (fwd : Bool) (l : List Live) (i : Nat) : Option Nat :=
  if fwd then next l i else (if i = 0 then none else some (i - 1))

/-- The item of the page at the locator. -/
def cur (l : List Live) (loc : Option Nat) : Option (Nat × Live) :=
  match loc with
  | none => none
  | some i => match l[i]? with | none => none | some x => some (i, x)

/-- The rows of a leaf.  `hik` is its hikey (`none`: RIGHTMOST), `hs` what is left of the historical images
(nothing: `haveHistImg` is not set), `n` a bound for the number of turns.
`btree_seq_scan_getnext_internal`: src/btree/scan.c:2788-2930 (historical), 3004-3016 (page). -/
def leaf (fwd : Bool) (hik : Option Nat) (l : List Live) : Nat → Option Nat → List Hist → List (Nat × Nat)
  | 0, _, _ => []
  | n + 1, loc, h :: hs =>
    match cur l loc with
    | none =>
      match hik with
      | none => row h.key h.ver ++ leaf fwd hik l n loc hs
      | some b => if b ≤ h.key then [] else row h.key h.ver ++ leaf fwd hik l n loc hs
    | some (i, x) =>
      if x.key < h.key then row x.key x.ver ++ leaf fwd hik l n (advance fwd l i) (h :: hs)
      else if h.key = x.key then
        if x.own then row x.key x.ver ++ leaf fwd hik l n (advance fwd l i) hs
        else row h.key h.ver ++ leaf fwd hik l n (next l i) hs
      else row h.key h.ver ++ leaf fwd hik l n loc hs
  | n + 1, loc, [] =>
    match cur l loc with
    | none => []
    | some (i, x) => row x.key x.ver ++ leaf fwd hik l n (advance fwd l i) []

/-- The rows of a downlink: those of the leaf, or of an iterator, which always goes forward
(`scan_make_iterator`: src/btree/scan.c:914-921). -/
def rows (fwd iter : Bool) (hik : Option Nat) (l : List Live) (hs : List Hist) : List (Nat × Nat) :=
  let d := if iter then true else fwd
  leaf d hik l ((l.length + 1) * (hs.length + 1)) (start d l) hs

/-- The version of a key which is to be returned: that of the page if it is the own one; otherwise that of the
historical images; that of the page if they have not the key. -/
def expect (l : List Live) (hs : List Hist) (k : Nat) : Option Nat :=
  match l.find? (fun x => x.key == k), hs.find? (fun h => h.key == k) with
  | some x, some h => if x.own then x.ver else h.ver
  | some x, none => x.ver
  | none, some h => h.ver
  | none, none => none

end Verif.SeqScan.Merge
