/-
Row locks and row changes: the chain of headers of one row of a primary index
(src/btree/undo.c, src/btree/modify.c).

A row on a page carries a header (`BTreeLeafTuphdr`) that names the transaction
that locked or changed it last and points to an undo record.  The undo record
holds the header the row had before, and so on.

Every operation below is done by the code under the lock of the page, so it is
one step here.

Simplified throughout:
 * one row of one primary index, in an ordinary backend (no recovery process,
   no bridge index, no table created by the same transaction);
 * `UndoLocation` is a natural number, `InvalidUndoLocation` is 0, and the
   location of an undo record is the location of its `tuphdr` (the code adds
   `offsetof(BTreeModifyUndoStackItem, tuphdr)`);
 * undo records are never discarded, so the branches on
   `retainedUndoLocation` and `undo_read_if_exists` returning false are not
   modelled (a record of an unfinished transaction is kept, see C54);
 * no savepoints: `savepointUndoLocation` is always invalid;
 * the status of the other transactions does not change during one operation;
 * a tuple is a number; sizes, format flags and vacated space are not modelled.
-/

namespace Verif.RowLocks

/-- What the commit sequence number of a transaction says
(src/transam/oxid.c:1990-2045 `oxid_get_csn`): in progress, committed with a
number, or aborted. -/
inductive Status where
  | running
  | committed (csn : Nat)
  | aborted
deriving DecidableEq, Repr

/-- `BTreeLeafTuphdr` (include/btree/page_contents.h) with `xactInfo` unpacked
(include/btree/btree.h:453-493): transaction, lock mode, lock-only bit; then
`undoLocation`, `chainHasLocks` and `deleted` (the kinds of deletion are one).
Lock modes are the numbers of `RowLockMode` (include/btree/btree.h:439-445). -/
structure Hdr where
  oxid : Nat
  mode : Nat
  lockOnly : Bool
  loc : Nat
  chl : Bool
  deleted : Bool
deriving DecidableEq, Repr

/-- `BTreeModifyUndoStackItem` (include/btree/undo.h): the previous header and,
for an update, the previous tuple (otherwise 0). -/
structure Rec where
  hdr : Hdr
  tup : Nat
deriving DecidableEq, Repr

/-- `ROW_LOCKS_CONFLICT` (include/btree/btree.h:447). -/
def conflicts (a b : Nat) : Bool := 3 ≤ a + b

/-- `XACT_INFO_IS_FINISHED` (include/btree/btree.h:484-485), which is
`xid_is_finished` (src/transam/oxid.c:2192-2217).  Simplified: the shortcut for
transactions below `runXmin` is left out, so an aborted one is not finished. -/
def isFinished (st : Nat → Status) (x : Nat) : Bool :=
  match st x with
  | .committed _ => true
  | _ => false

/-- `COMMITSEQNO_IS_INPROGRESS` of the transaction's number.  src/transam/oxid.c:1990-2045. -/
def inProgress (st : Nat → Status) (x : Nat) : Bool :=
  match st x with
  | .running => true
  | _ => false

/-- The undo records by location.
`BTreeModifyUndoStackItem`, include/btree/undo.h:131-139; src/btree/undo.c:2140-2248. -/
abbrev Recs := Nat → Rec

/-- Writes the header stored at a location
(src/btree/undo.c:2214-2248 `update_leaf_header_in_undo` and
`update_leaf_header_in_undo_if_exists`). -/
def setHdr (r : Recs) (l : Nat) (h : Hdr) : Recs :=
  fun k => if k = l then { r l with hdr := h } else r k

/-- The loop of `clean_chain_has_locks_flag` (src/btree/undo.c:1714-1729). -/
def cleanLoop : Nat → Recs → Nat → Recs
  | 0, r, _ => r
  | fuel + 1, r, l =>
    if l = 0 then r
    else if (r l).hdr.chl = false then r
    else cleanLoop fuel (setHdr r l { (r l).hdr with chl := false }) (r l).hdr.loc

/-- `clean_chain_has_locks_flag` (src/btree/undo.c:1686-1730).  `fuel` bounds
the loop of the code; locations decrease along a chain, so a fuel above the
largest location is never exhausted. -/
def cleanFlag (fuel : Nat) (page : Hdr) (r : Recs) (l : Nat) : Hdr × Recs :=
  if l = 0 then
    if page.chl = false then (page, r)
    else ({ page with chl := false }, cleanLoop fuel r page.loc)
  else (page, cleanLoop fuel r l)

/-- The arguments of `row_lock_conflicts`: the mode asked for, the transaction
asking, its snapshot, and the statuses of all transactions.

`ipLow` tells whether the number `COMMITSEQNO_INPROGRESS`, defined in the
patched PostgreSQL headers and not in this repository, is below every ordinary
number, so that `csn < my_csn` holds for a transaction in progress.  src/btree/undo.c:1746-1784. -/
structure Env where
  mode : Nat
  me : Nat
  csn : Nat
  st : Nat → Status
  ipLow : Bool

/-- `csn < my_csn` (src/btree/undo.c:1783, 1961).  An aborted number is a
special one below the ordinary ones. -/
def csnBelow (E : Env) (x : Nat) : Bool :=
  match E.st x with
  | .running => E.ipLow
  | .committed c => decide (c < E.csn)
  | .aborted => true

/-- `xactIsFinished` (src/btree/undo.c:1773-1784, 1952-1962). -/
def xFinished (E : Env) (h : Hdr) : Bool :=
  if conflicts h.mode E.mode then isFinished E.st h.oxid
  else !inProgress E.st h.oxid

/-- `xactIsFinal` (src/btree/undo.c:1773-1784, 1952-1962). -/
def xFinal (E : Env) (h : Hdr) : Bool :=
  if conflicts h.mode E.mode then isFinished E.st h.oxid
  else csnBelow E h.oxid

/-- The variables of the loop of `row_lock_conflicts`
(src/btree/undo.c:1757-1786): the header on the page, the undo records,
`curTuphdr`, `curUndoLocation`, `lastLockOnlyUndoLocation`, the conflict found
so far (`result`, `*conflictTuphdr`), `*redundant_row_locks` and
`*lock_status` (0 none, 1 weaker, 2 same or stronger).  `xactInfo` and
`undoLocation` are always those of `curTuphdr`.  Left out:
`conflictUndoLocation`, `finalTuphdr` and `finalUndoLocation`, which are used
for rolling back changes of an aborted transaction and for reporting
serialization failures. -/
structure Walk where
  page : Hdr
  recs : Recs
  cur : Hdr
  curLoc : Nat
  last : Nat
  conf : Option Hdr
  redundant : Bool
  status : Nat

/-- The condition of the loop (src/btree/undo.c:1788-1790). -/
def Walk.goes (E : Env) (w : Walk) : Bool :=
  w.cur.chl || w.cur.lockOnly || !xFinal E w.cur

/-- Whether a conflicting lock is noted: `!result` or the conflict noted is by
the transaction itself (src/btree/undo.c:1827-1828). -/
def openL (me : Nat) : Option Hdr → Bool
  | none => true
  | some c => decide (c.oxid = me)

/-- Whether a conflicting change is noted: as for locks, but an own change does
not replace another one (src/btree/undo.c:1845-1847). -/
def openM (me : Nat) (cur : Hdr) : Option Hdr → Bool
  | none => true
  | some c => decide (c.oxid = me) && decide (cur.oxid ≠ me)

/-- The first part of the body (src/btree/undo.c:1795-1854): note own locks and
conflicts; the flag is `delete_record`. -/
def Walk.note (E : Env) (w : Walk) : Walk × Bool :=
  if w.cur.lockOnly then
    if w.cur.oxid = E.me then
      ({ w with
          redundant := w.redundant || decide (w.cur.mode ≤ E.mode)
          status := max w.status (if E.mode ≤ w.cur.mode then 2 else 1) }, false)
    else if !inProgress E.st w.cur.oxid then
      (w, true)
    else if conflicts w.cur.mode E.mode && openL E.me w.conf then
      ({ w with conf := some w.cur }, false)
    else (w, false)
  else if !xFinished E w.cur then
    let w1 : Walk :=
      if w.cur.oxid = E.me then
        { w with status := max w.status (if E.mode ≤ w.cur.mode then 2 else 1) }
      else w
    if conflicts w.cur.mode E.mode && openM E.me w.cur w.conf then
      ({ w1 with conf := some w.cur }, false)
    else (w1, false)
  else (w, false)

/-- Removing the lock record of a finished transaction
(src/btree/undo.c:1856-1897).  When the record is the header on the page, the
page is rewritten and `curTuphdr` stays; otherwise `curTuphdr` becomes the
previous header and is written where the removed one was. -/
def Walk.drop (fuel : Nat) (w : Walk) : Walk :=
  if w.cur.loc = 0 then w
  else
    let prev := (w.recs w.cur.loc).hdr
    if w.curLoc = 0 then
      { w with
          page := { w.page with
                      oxid := prev.oxid, mode := prev.mode, lockOnly := prev.lockOnly
                      loc := prev.loc, chl := prev.chl } }
    else
      let (pg, r, last) :=
        if w.cur.lockOnly && !w.cur.chl then
          let (pg, r) := cleanFlag fuel w.page w.recs w.last
          (pg, r, 0)
        else (w.page, w.recs, w.last)
      let cur : Hdr := { w.cur with
                          oxid := prev.oxid, mode := prev.mode, lockOnly := prev.lockOnly
                          loc := prev.loc, chl := prev.chl }
      { w with page := pg, recs := setHdr r w.curLoc cur, cur := cur, last := last }

/-- One turn of the loop of `row_lock_conflicts`
(src/btree/undo.c:1788-1986).  The second component is false when the function
returns inside the body. -/
def Walk.turn (fuel : Nat) (E : Env) (w : Walk) : Walk × Bool :=
  let (w1, del) := w.note E
  let loc := w.cur.loc
  let w2 := if del then w1.drop fuel else w1
  if loc = 0 then
    -- end of the chain (src/btree/undo.c:1899-1922)
    if w2.cur.chl then
      let (pg, r) := cleanFlag fuel w2.page w2.recs w2.last
      ({ w2 with page := pg, recs := r, last := 0 }, false)
    else (w2, false)
  else
    -- src/btree/undo.c:1924-1949
    let prevChl := if del then false else w2.cur.chl
    let w3 : Walk :=
      if del then { w2 with curLoc := loc }
      else { w2 with
              last := if w2.cur.lockOnly then loc else w2.last
              cur := (w2.recs loc).hdr
              curLoc := loc }
    -- src/btree/undo.c:1965-1978
    if prevChl && !w3.cur.chl && !w3.cur.lockOnly then
      let (pg, r) := cleanFlag fuel w3.page w3.recs w3.last
      ({ w3 with page := pg, recs := r, last := 0 }, true)
    else (w3, true)

/-- The loop of `row_lock_conflicts` (src/btree/undo.c:1788-1986). -/
def Walk.loop (fuel0 : Nat) (E : Env) : Nat → Walk → Walk
  | 0, w => w
  | n + 1, w =>
    if w.goes E then
      let (w1, more) := w.turn fuel0 E
      if more then Walk.loop fuel0 E n w1 else w1
    else w

/-- `row_lock_conflicts` (src/btree/undo.c:1746-1994). -/
def rowLockConflicts (fuel : Nat) (E : Env) (page : Hdr) (r : Recs) : Walk :=
  Walk.loop fuel E fuel
    { page := page, recs := r, cur := page, curLoc := 0, last := 0, conf := none
      redundant := false, status := 0 }

/-- The variables of the loop of `remove_redundant_row_locks`
(src/btree/undo.c:2009-2017): the header on the page, the records, the header
looked at (`xactInfo`, `undoLocation`, `chainHasLocks`), `prevUndoLoc` and
`lastLockOnlyUndoLocation`. -/
structure Purge where
  page : Hdr
  recs : Recs
  cur : Hdr
  prev : Nat
  last : Nat

/-- One turn of the loop of `remove_redundant_row_locks`
(src/btree/undo.c:2019-2086). -/
def Purge.turn (fuel : Nat) (me mode : Nat) (p : Purge) : Purge :=
  let below := (p.recs p.cur.loc).hdr
  let p1 : Purge :=
    if p.cur.lockOnly && decide (p.cur.oxid = me) && decide (p.cur.mode ≤ mode) then
      if p.prev = 0 then
        { p with
            page := { p.page with
                        oxid := below.oxid, mode := below.mode
                        lockOnly := below.lockOnly, loc := below.loc } }
      else
        let (pg, r) :=
          if !p.cur.chl then cleanFlag fuel p.page p.recs p.last else (p.page, p.recs)
        { p with page := pg, recs := setHdr r p.prev below }
    else p
  { p1 with
      last := if p.cur.lockOnly then p.prev else p.last
      prev := p.cur.loc
      cur := below }

/-- The loop of `remove_redundant_row_locks` (src/btree/undo.c:2019-2086). -/
def Purge.loop (fuel0 : Nat) (st : Nat → Status) (me mode : Nat) : Nat → Purge → Purge
  | 0, p => p
  | n + 1, p =>
    if (!isFinished st p.cur.oxid || p.cur.chl) && decide (p.cur.loc ≠ 0) then
      Purge.loop fuel0 st me mode n (p.turn fuel0 me mode)
    else p

/-- `remove_redundant_row_locks` (src/btree/undo.c:1999-2087). -/
def removeRedundant (fuel : Nat) (st : Nat → Status) (me mode : Nat) (page : Hdr)
    (r : Recs) : Hdr × Recs :=
  let p := Purge.loop fuel st me mode fuel
    { page := page, recs := r, cur := page, prev := 0, last := 0 }
  (p.page, p.recs)

/-- `find_non_lock_only_undo_record` (src/btree/undo.c:2093-2110): the first
header of the chain that is not a lock, with the location where it is stored
(0 for the page). -/
def findNonLock (r : Recs) : Nat → Hdr → Nat → Hdr × Nat
  | 0, h, l => (h, l)
  | n + 1, h, l =>
    if h.lockOnly then
      if h.loc = 0 then (h, 0) else findNonLock r n (r h.loc).hdr h.loc
    else (h, l)

/-- A row of the page: its header and tuple.  include/btree/page_contents.h:290-328. -/
structure Row where
  hdr : Hdr
  tup : Nat
deriving DecidableEq, Repr

/-- `page_item_rollback` for one change (src/btree/undo.c:153-305, `wholeChain`
false).  `h`, `l` are the first header that is not a lock and the place where it
is stored.  The result is `none` when the row disappears. -/
def itemRollback (row : Row) (r : Recs) (h : Hdr) (l : Nat) : Option Row × Recs :=
  if row.hdr.deleted then
    -- revert a deletion (src/btree/undo.c:178-218)
    let prev := (r row.hdr.loc).hdr
    if row.hdr.lockOnly then
      (some { row with hdr := { row.hdr with
                oxid := prev.oxid, mode := prev.mode, lockOnly := prev.lockOnly
                loc := prev.loc, chl := prev.chl } }, r)
    else (some { row with hdr := prev }, r)
  else if h.loc ≠ 0 then
    -- revert an update (src/btree/undo.c:219-284)
    let prev := (r h.loc).hdr
    let tup := (r h.loc).tup
    if l = 0 then (some { hdr := prev, tup := tup }, r)
    else
      (some { hdr := { row.hdr with deleted := prev.deleted }, tup := tup },
       setHdr r l { h with
         loc := prev.loc, oxid := prev.oxid, mode := prev.mode, lockOnly := prev.lockOnly })
  else
    -- revert an insertion (src/btree/undo.c:285-312)
    (none, r)

/-- What an undo record on a transaction's stack undoes.  src/btree/undo.c:153-318. -/
inductive Kind where
  | ins
  | mod
  | lock
deriving DecidableEq, Repr

/-- `modify_undo_callback` (src/btree/undo.c:517-632) for the record at `l`. -/
def modifyUndo (fuel : Nat) (x l : Nat) (k : Kind) (row : Row) (r : Recs) :
    Option Row × Recs :=
  let (h, at_) := findNonLock r fuel row.hdr 0
  if h.oxid ≠ x then (some row, r)
  else if h.loc = l ∨ (h.loc = 0 ∧ k = .ins) then itemRollback row r h at_
  else (some row, r)

/-- The variables of the loop of `lock_undo_callback`
(src/btree/undo.c:712-716). -/
structure Unlock where
  page : Hdr
  recs : Recs
  cur : Hdr
  at_ : Nat
  last : Nat

/-- One turn of the loop of `lock_undo_callback` (src/btree/undo.c:718-769). -/
def Unlock.turn (fuel : Nat) (x l : Nat) (u : Unlock) : Unlock :=
  let prev := (u.recs u.cur.loc).hdr
  let u1 : Unlock :=
    if u.cur.lockOnly && decide (u.cur.oxid = x) && decide (u.cur.loc = l) then
      let (pg, r) :=
        if !u.cur.chl then cleanFlag fuel u.page u.recs u.last else (u.page, u.recs)
      if u.at_ = 0 then
        let pg1 : Hdr := { pg with
                            oxid := prev.oxid, mode := prev.mode, lockOnly := prev.lockOnly
                            loc := prev.loc, chl := prev.chl }
        { u with page := pg1, recs := r, cur := pg1 }
      else
        let c : Hdr := { u.cur with
                          oxid := prev.oxid, mode := prev.mode, lockOnly := prev.lockOnly
                          loc := prev.loc, chl := prev.chl }
        { u with page := pg, recs := setHdr r u.at_ c, cur := c }
    else u
  { u1 with
      last := if u1.cur.lockOnly then u1.at_ else u1.last
      cur := prev
      at_ := u.cur.loc }

/-- The loop of `lock_undo_callback` (src/btree/undo.c:718-769). -/
def Unlock.loop (fuel0 : Nat) (st : Nat → Status) (x l : Nat) : Nat → Unlock → Unlock
  | 0, u => u
  | n + 1, u =>
    if (!isFinished st u.cur.oxid || u.cur.chl) && decide (u.cur.loc ≠ 0) then
      Unlock.loop fuel0 st x l n (u.turn fuel0 x l)
    else u

/-- `lock_undo_callback` (src/btree/undo.c:638-771) for the record at `l`. -/
def lockUndo (fuel : Nat) (st : Nat → Status) (x l : Nat) (row : Row) (r : Recs) :
    Option Row × Recs :=
  let u := Unlock.loop fuel st x l fuel
    { page := row.hdr, recs := r, cur := row.hdr, at_ := 0, last := 0 }
  (some { row with hdr := u.page }, u.recs)

/-- What a transaction asks for.  src/btree/modify.c:488-732. -/
inductive Want where
  | insert (v : Nat)
  | update (v : Nat)
  | delete
  | lock
deriving DecidableEq, Repr

/-- The answer to a request: done; refused because of a transaction in
progress, so that the caller waits (or gives up); a row is there already
(insert); there is no row; the conflicting change is by an aborted transaction
(the caller rolls it back, src/btree/modify.c:573-588, not modelled further). -/
inductive Out where
  | done
  | refused (y : Nat)
  | exists_
  | missing
  | dead
deriving DecidableEq, Repr

/-- The state: the row, if there is one, the undo records, the next free undo
location, the status of every transaction, whether it is rolling back, and its
undo stack (newest first; src/transam/undo.c, see C24). -/
structure St where
  row : Option Row
  recs : Recs
  next : Nat
  st : Nat → Status
  aborting : Nat → Bool
  stack : Nat → List (Nat × Kind)
  ipLow : Bool

/-- No row, no records, and every transaction may start.
Auxiliary of the model, without counterpart in /repo. -/
def St.init (ipLow : Bool) : St :=
  { row := none
    recs := fun _ => ⟨⟨0, 0, false, 0, false, false⟩, 0⟩
    next := 1
    st := fun _ => .running
    aborting := fun _ => false
    stack := fun _ => []
    ipLow := ipLow }

/-- Changes the value of a function at one place.
Auxiliary of the model, without counterpart in /repo. -/
def upd {α : Type} (f : Nat → α) (a : Nat) (v : α) : Nat → α :=
  fun b => if b = a then v else f b

/-- `make_undo_record` (src/btree/undo.c:363-440) and `add_new_undo_stack_item`:
a record with the header on the page, pushed on the stack of `x`. -/
def St.record (s : St) (x : Nat) (k : Kind) (h : Hdr) (tup : Nat) : St :=
  { s with
      recs := fun i => if i = s.next then ⟨h, tup⟩ else s.recs i
      next := s.next + 1
      stack := upd s.stack x ((s.next, k) :: s.stack x) }

/-- The header a lock or change puts on the page: it points to the new record,
and knows of locks below (src/btree/modify.c:879-881, 984-991, 1067-1073). -/
def newHdr (s : St) (x mode : Nat) (lockOnly deleted : Bool) (old : Hdr) : Hdr :=
  { oxid := x, mode := mode, lockOnly := lockOnly, loc := s.next
    chl := old.chl || old.lockOnly, deleted := deleted }

/-- The final part of a request, on a row that has no conflict
(src/btree/modify.c:243-437): the row `row` after `row_lock_conflicts`, and the
own locks of the transaction it reported.  Simplified: every change makes an
undo record (`pk_needs_undo`, src/tableam/tree.c:953-971, says so except when
the transaction inserts over its own deletion of the preceding version, which
the caller's tuple can only be after a retry), and the callbacks agree. -/
def St.perform (s : St) (x mode : Nat) (w : Want) (row : Row) (redundant : Bool)
    (status : Nat) : St × Out :=
  if row.hdr.deleted then
    match w with
    | .insert v =>
      let s1 := s.record x .mod row.hdr row.tup
      ({ s1 with row := some ⟨newHdr s x mode false false row.hdr, v⟩ }, .done)
    | _ => ({ s with row := some row }, .missing)
  else
    match w with
    | .insert _ => ({ s with row := some row }, .exists_)
    | .lock =>
      -- src/btree/modify.c:330-336, 1036-1040: a lock that is strong enough is
      -- relied on, and then own locks are not removed
      if status = 2 then ({ s with row := some row }, .done)
      else
        let (h, r) :=
          if redundant then removeRedundant (s.next + 2) s.st x mode row.hdr s.recs
          else (row.hdr, s.recs)
        let s1 := { s with recs := r }
        let s2 := s1.record x .lock h 0
        ({ s2 with row := some ⟨newHdr s x mode true false h, row.tup⟩ }, .done)
    | .update v =>
      let (h, r) :=
        if redundant then removeRedundant (s.next + 2) s.st x mode row.hdr s.recs
        else (row.hdr, s.recs)
      let s1 := { s with recs := r }
      let s2 := s1.record x .mod h row.tup
      ({ s2 with row := some ⟨newHdr s x mode false false h, v⟩ }, .done)
    | .delete =>
      let (h, r) :=
        if redundant then removeRedundant (s.next + 2) s.st x mode row.hdr s.recs
        else (row.hdr, s.recs)
      let s1 := { s with recs := r }
      let s2 := s1.record x .mod h 0
      ({ s2 with row := some ⟨newHdr s x mode false true h, row.tup⟩ }, .done)

/-- `o_btree_modify_internal` on the row (src/btree/modify.c:121-441), with
`o_btree_modify_handle_conflicts` (src/btree/modify.c:487-715): one pass, that
is up to waiting for a conflicting transaction. -/
def St.request (s : St) (x mode csn : Nat) (w : Want) : St × Out :=
  match s.row with
  | none =>
    -- src/btree/modify.c:717-741
    match w with
    | .insert v =>
      -- the undo record of an insertion has no header (src/btree/modify.c:885-895)
      let s1 := s.record x .ins ⟨0, 0, false, 0, false, false⟩ 0
      ({ s1 with row := some ⟨⟨x, mode, false, 0, false, false⟩, v⟩ }, .done)
    | _ => (s, .missing)
  | some row =>
    let E : Env := { mode := mode, me := x, csn := csn, st := s.st, ipLow := s.ipLow }
    let k := rowLockConflicts (s.next + 2) E row.hdr s.recs
    let row1 : Row := { row with hdr := k.page }
    let s1 : St := { s with row := some row1, recs := k.recs }
    match k.conf with
    | some c =>
      if c.oxid = x then s1.perform x mode w row1 k.redundant k.status
      else match s.st c.oxid with
        | .running => (s1, .refused c.oxid)
        | _ => (s1, .dead)
    | none => s1.perform x mode w row1 k.redundant k.status

/-- The mode a request may use (src/btree/modify.c:161): a change needs at
least `RowLockNoKeyUpdate`; insertions and deletions use `RowLockUpdate`
(src/tableam/operations.c:758, 2294). -/
def Want.modeOk (w : Want) (mode : Nat) : Bool :=
  match w with
  | .insert _ => mode == 3
  | .update _ => mode == 2 || mode == 3
  | .delete => mode == 3
  | .lock => decide (mode ≤ 3)

/-- The steps: a transaction asks for a lock or a change; it commits; it starts
to roll back; it undoes its newest record; it ends the rollback; other rows use
undo space.  src/btree/modify.c:488-732, src/btree/undo.c:153-318, 1746-1994. -/
inductive Op where
  | ask (x mode csn : Nat) (w : Want)
  | commit (x csn : Nat)
  | startAbort (x : Nat)
  | undo (x : Nat)
  | endAbort (x : Nat)
  | other (n : Nat)
deriving DecidableEq, Repr

/-- What can be seen from outside: a request with its answer, a commit, the
start and the end of a rollback.  Auxiliary of the model, without counterpart in /repo. -/
inductive Ev where
  | answered (x mode : Nat) (w : Want) (o : Out)
  | committed (x : Nat)
  | leaving (x : Nat)
  | left (x : Nat)
deriving DecidableEq, Repr

/-- Undoing the newest record of `x` (the dispatch of `walk_undo_stack`,
src/transam/undo.c:1418-1497, to the two callbacks). -/
def St.undoTop (s : St) (x : Nat) : St :=
  match s.stack x with
  | [] => s
  | (l, k) :: rest =>
    match s.row with
    | none => { s with stack := upd s.stack x rest }
    | some row =>
      let res :=
        match k with
        | .lock => lockUndo (s.next + 2) s.st x l row s.recs
        | .ins => modifyUndo (s.next + 2) x l .ins row s.recs
        | .mod => modifyUndo (s.next + 2) x l .mod row s.recs
      { s with stack := upd s.stack x rest, row := res.1, recs := res.2 }

/-- One step.  A transaction that has ended, or is rolling back, asks for
nothing; a rollback undoes all records, newest first, and only then is the
transaction marked aborted (src/transam/undo.c:2750-2761).  Steps that are not
possible do nothing. -/
def St.step (s : St) : Op → St × Option Ev
  | .ask x mode csn w =>
    if s.st x = .running ∧ s.aborting x = false ∧ w.modeOk mode = true then
      ((s.request x mode csn w).1, some (.answered x mode w (s.request x mode csn w).2))
    else (s, none)
  | .commit x csn =>
    if s.st x = .running ∧ s.aborting x = false then
      ({ s with st := upd s.st x (.committed csn) }, some (.committed x))
    else (s, none)
  | .startAbort x =>
    if s.st x = .running ∧ s.aborting x = false then
      ({ s with aborting := upd s.aborting x true }, some (.leaving x))
    else (s, none)
  | .undo x =>
    if s.st x = .running ∧ s.aborting x = true then (s.undoTop x, none)
    else (s, none)
  | .endAbort x =>
    if s.st x = .running ∧ s.aborting x = true ∧ s.stack x = [] then
      ({ s with st := upd s.st x .aborted }, some (.left x))
    else (s, none)
  | .other n => ({ s with next := s.next + n }, none)

/-- The state after a run.  Auxiliary of the model, without counterpart in /repo. -/
def St.run (s : St) : List Op → St
  | [] => s
  | op :: ops => (s.step op).1.run ops

/-- What is seen of a run.  Auxiliary of the model, without counterpart in /repo. -/
def St.trace (s : St) : List Op → List Ev
  | [] => []
  | op :: ops => (s.step op).2.toList ++ (s.step op).1.trace ops

end Verif.RowLocks
