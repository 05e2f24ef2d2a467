/-!
# Sequential scans: the walk over the internal pages

A sequential scan reads copies of the pages of level 1 one after the other.  Each downlink stands for a
range of keys, which is read from the leaf page, or, if this has changed, by an iterator.  Between two
copies the tree may change in any way.

Keys are numbers.  The same code serves serial and parallel scans, in two branches; the steps here are
those of both (`load` and `claim` in any order the one or the other allows).
-/

namespace Verif.SeqScan

/-- A range of keys, from `lo` on, below `hi`; `none` is no bound.  `keyRangeLow`, `keyRangeHigh`:
src/btree/scan.c:211-212. -/
structure Range where
  lo : Option Nat
  hi : Option Nat
deriving DecidableEq, Repr

/-- Is a key not below a lower bound? -/
def above (b : Option Nat) (k : Nat) : Bool :=
  match b with
  | none => true
  | some l => decide (l ≤ k)

/-- Is a key below an upper bound? -/
def below (b : Option Nat) (k : Nat) : Bool :=
  match b with
  | none => true
  | some h => decide (k < h)

/-- Is a key in a range? -/
def Range.has (r : Range) (k : Nat) : Bool := above r.lo k && below r.hi k

/-- A copy of a page of level 1: its low key (`context.lokey`; `none` if the page is LEFTMOST), the keys of
all items but the first, its hikey (`none` if RIGHTMOST). -/
structure Page where
  low : Option Nat
  seps : List Nat
  high : Option Nat
deriving DecidableEq, Repr

/-- The number of items. -/
def Page.count (p : Page) : Nat := p.seps.length + 1

/-- The key of an item; the low key for the first, the hikey behind the last.  `get_next_key`:
src/btree/scan.c:990-1014. -/
def Page.bound (p : Page) (i : Nat) : Option Nat :=
  if i = 0 then p.low
  else match p.seps[i - 1]? with
    | some k => some k
    | none => p.high

/-- The range of keys an item stands for. -/
def Page.item (p : Page) (i : Nat) : Range := ⟨p.bound i, p.bound (i + 1)⟩

/-- Is a bound less than the next one? -/
def less (a b : Option Nat) : Bool :=
  match a, b with
  | some x, some y => decide (x < y)
  | _, _ => true

/-- The keys of the page are in order. -/
def Page.ok (p : Page) : Bool := (List.range p.count).all (fun i => less (p.bound i) (p.bound (i + 1)))

/-- The item which covers a key: the last one whose key is not greater.  `page_find_downlink` for
`BTreeKeyNonLeafKey`, called by `find_page` at src/btree/scan.c:580. -/
def Page.find (p : Page) (k : Nat) : Nat := (p.seps.takeWhile (fun x => decide (x ≤ k))).length

/-- A page being walked over: the next item (`intLoc`, `offset`), the item begun with (`intStartOffset`,
`startOffset`) and `prevHikey`.  src/btree/scan.c:165-173; include/tableam/handler.h:168-177. -/
structure Buf where
  page : Page
  loc : Nat
  start : Nat
  prev : Option Nat
deriving DecidableEq, Repr

/-- The state: the current and the next page (the latter in parallel scans), and the ranges whose rows have
been or will be returned. -/
structure St where
  cur : Option Buf
  next : Option Buf
  done : List Range
deriving DecidableEq, Repr

/-- What happens: a page is loaded; the next downlink is taken, and its rows are read from a leaf page with
this range, or with an iterator; the next page becomes the current one. -/
inductive Ev where
  | load (p : Page)
  | claim (iter : Bool)
  | flip
deriving DecidableEq, Repr

/-- The beginning. -/
def init : St := ⟨none, none, []⟩

/-- The first page is found without a key.  src/btree/scan.c:582-585. -/
def loadFirst (p : Page) : Option Buf :=
  if p.ok && p.low.isNone then some ⟨p, 0, 0, none⟩ else none

/-- A further page is found by the hikey of the one before: any page with this key.  If the key is not
that of the item found, its range is read from the key on by an iterator, and the item is left out.
`load_next_internal_page`: src/btree/scan.c:535-702. -/
def loadNext (h : Nat) (p : Page) : Option (Buf × List Range) :=
  if p.ok && above p.low h && below p.high h then
    let i := p.find h
    if p.bound i = some h then some (⟨p, i, i, some h⟩, [])
    else some (⟨p, i + 1, i, some h⟩, [⟨some h, p.bound (i + 1)⟩])
  else none

/-- The range given for an item.  `get_current_downlink_key` (the low key: of the item, `prevHikey` for the
first item, none on the leftmost page) and `get_next_key`: src/btree/scan.c:940-1014. -/
def Buf.claimed (b : Buf) : Range :=
  ⟨if b.loc ≠ b.start then b.page.bound b.loc
    else if b.page.low.isSome then b.prev
    else none, b.page.bound (b.loc + 1)⟩

/-- One step.  A leaf page is read as it is if it ends where the downlink's range ends (a page keeps its
lower end as long as it is the same page); an iterator reads the range given.
`get_next_downlink`: src/btree/scan.c:1093-1453; `iterate_internal_page`: 2004-2243;
`check_in_memory_leaf_page`: 1462-1493. -/
def step (s : St) : Ev → Option St
  | .load p =>
    match s.cur, s.next with
    | none, _ =>
      match loadFirst p with
      | some b => some { s with cur := some b }
      | none => none
    | some b, none =>
      match b.page.high with
      | none => none
      | some h =>
        match loadNext h p with
        | none => none
        | some (b', rs) => some { s with next := some b', done := s.done ++ rs }
    | some _, some _ => none
  | .claim iter =>
    match s.cur with
    | none => none
    | some b =>
      if b.loc < b.page.count then
        some { s with cur := some { b with loc := b.loc + 1 },
                      done := s.done ++ [if iter then b.claimed else b.page.item b.loc] }
      else none
  | .flip =>
    match s.cur, s.next with
    | some b, some b' => if b.page.count ≤ b.loc then some ⟨some b', none, s.done⟩ else none
    | _, _ => none

/-- A run. -/
def run (s : St) : List Ev → Option St
  | [] => some s
  | e :: es =>
    match step s e with
    | none => none
    | some s' => run s' es

/-- The rightmost page is done.  src/btree/scan.c:1299-1300, 1331-1346. -/
def St.finished (s : St) : Bool :=
  match s.cur with
  | none => false
  | some b => b.page.high.isNone && decide (b.page.count ≤ b.loc)

end Verif.SeqScan
