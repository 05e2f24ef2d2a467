/-!
# VACUUM of bridged indexes: removal from the bridge index, model

The removal goes through the TIDs in ascending order and keeps the page of the last one locked, to use
it again if the next TID belongs there.  TIDs are numbers here, in the order of the index.
-/

namespace Verif.BridgeVacuum

/-- A leaf of the bridge index: its high key (`none`: the rightmost page), src/tableam/vacuum.c:842-850,
and its items. -/
structure Page where
  hikey : Option Nat
  items : List Nat
deriving DecidableEq, Repr

/-- `pageMatch`, src/tableam/vacuum.c:842-854; also the choice of `find_page`, of which only the level of
leaves is modelled. -/
def pageMatch (t : Nat) (p : Page) : Bool :=
  match p.hikey with
  | none => true
  | some k => decide (t < k)

/-- `find_page`, as called at src/tableam/vacuum.c:830 and :888: the first leaf whose high key is above
the TID. -/
def findPage (ps : List Page) (t : Nat) : Nat := ps.findIdx (pageMatch t)

/-- The variables of `lazy_vacuum_bridge_index`, src/tableam/vacuum.c:735-748: the leaves, the page
locked (`have_page` with `context`), `walBuffer`, and the WAL records written. -/
structure W where
  pages : List Page
  cur : Option Nat
  buf : List Nat
  wal : List Nat
deriving DecidableEq, Repr

/-- Whether the page locked is given up, src/tableam/vacuum.c:836-856, :867-886. -/
def leaves (w : W) (t : Nat) : Bool :=
  match w.cur with
  | none => false
  | some i =>
    match w.pages[i]? with
    | none => true
    | some p => !pageMatch t p

/-- The page for a TID, src/tableam/vacuum.c:826-895. -/
def pick (w : W) (t : Nat) : Nat :=
  match w.cur with
  | none => findPage w.pages t
  | some i => if leaves w t then findPage w.pages t else i

/-- Whether the page has an item with the TID, src/tableam/vacuum.c:858-865, :897-905.  Simplified: the
search in the page. -/
def hasItem (ps : List Page) (i t : Nat) : Bool :=
  match ps[i]? with
  | none => false
  | some p => decide (t ∈ p.items)

/-- The loop for one TID, src/tableam/vacuum.c:826-914, for a tree that is kept in files.  An item that
is not there is passed over (:864-865, :897-905). -/
def removeOne (w : W) (t : Nat) : W :=
  let i := pick w t
  let wal := if leaves w t then w.wal ++ w.buf else w.wal
  let buf := if leaves w t then [] else w.buf
  { pages := w.pages.modify i fun p => { p with items := p.items.filter fun x => decide (x ≠ t) }
    cur := some i
    buf := if hasItem w.pages i t then buf ++ [t] else buf
    wal := wal }

/-- `lazy_vacuum_bridge_index`, src/tableam/vacuum.c:775-938: the leaves afterwards, and the TIDs for
which a WAL record was written. -/
def removeAll (ps : List Page) (ts : List Nat) : List Page × List Nat :=
  let w := ts.foldl removeOne ⟨ps, none, [], []⟩
  (w.pages, match w.cur with
    | none => w.wal
    | some _ => w.wal ++ w.buf)

end Verif.BridgeVacuum
