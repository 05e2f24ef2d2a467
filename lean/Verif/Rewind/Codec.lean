/-
The items one committed transaction puts into the queue of the rewind subsystem
and the way a rewind reads them back.

Source: src/rewind/rewind.c, include/rewind/rewind.h.
-/
namespace Verif.Rewind

/-- What is known about one committed transaction when it is put into the queue:
`add_to_rewind_buffer(oxid, xid, nsubxids, subxids)` (rewind.c:1608-1865).
`oxid`/`xid` are `none` for `InvalidOXid` (orioledb.h:166) / `InvalidTransactionId`.
`time` is `RewindItem.timestamp`, `undo` the transaction's undo location and `retain`
the recorded `minRetainLocation`.  Simplified: one undo log type instead of three; the
fields `onCommitUndoLocation`, `oldestConsideredRunningXid` and `runXmin` are carried
around in the same way and are left out. -/
structure Txn where
  oxid : Option Nat
  xid : Option Nat
  subs : List Nat
  time : Nat
  undo : Nat
  retain : Nat
  deriving DecidableEq, Repr

/-- An item with its tag: `RewindItem` (rewind.h:50-62, tag `REWIND_ITEM_TAG`) or
`SubxidsItem` (rewind.h:64-70, tag `SUBXIDS_ITEM_TAG`).  The tag `EMPTY_ITEM_TAG` is
`none` in the buffers of `Verif.Rewind.Queue`.  `arr` is the array `subxids` of
`SUBXIDS_PER_ITEM` entries, as a function of the index. -/
inductive Item where
  | rewind (oxid xid : Option Nat) (nsub time undo retain : Nat)
  | subxids (nsub : Nat) (oxid : Option Nat) (arr : Nat → Nat)

/-- `SUBXIDS_PER_ITEM` (rewind.h:42). -/
def perItem : Nat := 25

/-- Number of queue positions reserved for a transaction (rewind.c:1629). -/
def nitems (nsub : Nat) : Nat := if nsub ≠ 0 then 2 + (nsub - 1) / perItem else 1

/-- Assignment `a[i] = v` in an array seen as a function of its index (used for
`subxidsItem->subxids[...] = ...`, rewind.c:1727, and `subxids[...] = ...`,
rewind.c:521). -/
def put (a : Nat → Nat) (i v : Nat) : Nat → Nat := fun j => if j = i then v else a j

/-- The loop that fills the `SubxidsItem`s (rewind.c:1710-1747), from the state
`subxids_count = cnt`, the current item's array being `arr`.  `stale k` is what the slot
of the `k`-th `SubxidsItem` contains before (slots are not cleared, only their tag is).
The items come out in the order of their positions. -/
def fillSubs (oxid : Option Nat) (subs : List Nat) (stale : Nat → Nat → Nat) (cnt : Nat)
    (arr : Nat → Nat) : List Item :=
  if h : cnt < subs.length then
    let arr' := put arr (cnt % perItem) subs[cnt]
    if cnt + 1 = subs.length then [.subxids subs.length oxid arr']
    else if (cnt + 1) % perItem = 0 then
      .subxids subs.length oxid arr' :: fillSubs oxid subs stale (cnt + 1) (stale ((cnt + 1) / perItem))
    else fillSubs oxid subs stale (cnt + 1) arr'
  else []
termination_by subs.length - cnt

/-- The items of one transaction, in the order of their positions: the `RewindItem`
(rewind.c:1748-1834) and, if there are subtransactions, the `SubxidsItem`s. -/
def pack (stale : Nat → Nat → Nat) (t : Txn) : List Item :=
  .rewind t.oxid t.xid t.subs.length t.time t.undo t.retain ::
    (if t.subs.length ≠ 0 then fillSubs t.oxid t.subs stale 0 (stale 0) else [])

/-- One transaction undone by a rewind: `walk_undo_range_with_buf(... undoLocation ...)`
and `set_oxid_csn(oxid, COMMITSEQNO_ABORTED)` for a valid `oxid` (rewind.c:570-606),
`TransactionIdAbortTree(xid, nsubxids, subxids)` for a valid `xid` (rewind.c:609-638). -/
structure Undone where
  /-- the orioledb transaction marked aborted, with the undo location walked -/
  oriole : Option (Nat × Nat)
  /-- the PostgreSQL transaction aborted, with its subtransactions -/
  heap : Option (Nat × List Nat)
  deriving DecidableEq, Repr

/-- Local variables of `do_rewind` that survive from item to item (rewind.c:398-404):
`nsubxids`, `subxids_count`, `got_all_subxids`, the array `subxids`; `out` collects what
was undone, oldest last. -/
structure RwSt where
  nsub : Nat := 0
  cnt : Nat := 0
  got : Bool := false
  subs : Nat → Nat := fun _ => 0
  out : List Undone := []

/-- The loop that takes the subtransactions out of one `SubxidsItem`, backwards
(rewind.c:518-537).  The result is the new `subxids_count` and array; `none` when the C
code would decrement a zero `subxids_count` and index the array with -1. -/
def gather (arr : Nat → Nat) : Nat → (Nat → Nat) → Option (Nat × (Nat → Nat))
  | 0, _ => none
  | c + 1, s =>
    let s' := put s c (arr (c % perItem))
    if c = 0 then some (0, s')
    else if c % perItem = 0 then some (c, s')
    else gather arr c s'

/-- Result of handling one item: go on, stop before the item (`goto rewind_complete`), or
undefined behaviour (bad array index). -/
inductive RwRes where
  | go (s : RwSt)
  | stop (s : RwSt)
  | bad

/-- One iteration of the loop of `do_rewind` on an item (rewind.c:483-641).  `stop` is the
test of the requested target (rewind.c:545-565) as a function of the item's `oxid`, `xid`
and `timestamp`. -/
def rwItem (stop : Option Nat → Option Nat → Nat → Bool) (s : RwSt) : Item → RwRes
  | .subxids n _ arr =>
    let s := if s.nsub = 0 then { s with nsub := n, cnt := n, subs := fun _ => 0 } else s
    match gather arr s.cnt s.subs with
    | none => .bad
    | some (c, subs) => .go { s with cnt := c, subs := subs, got := if c = 0 then true else s.got }
  | .rewind oxid xid _ time undo _ =>
    if stop oxid xid time then .stop s
    else
      let oriole := oxid.map (fun o => (o, undo))
      match xid with
      | some x =>
        if s.got then
          .go { s with out := s.out ++ [⟨oriole, some (x, (List.range s.nsub).map s.subs)⟩]
                       got := false, nsub := 0 }
        else .go { s with out := s.out ++ [⟨oriole, some (x, [])⟩] }
      | none => .go { s with out := s.out ++ [⟨oriole, none⟩] }

/-- The loop of `do_rewind` over the items it reads (rewind.c:435-662); the list is in
reading order, from `addPosFilledUpto - 1` down to `completePos`.  The reading itself is
`walk` in `Verif.Rewind.Queue`. -/
def rwItems (stop : Option Nat → Option Nat → Nat → Bool) (s : RwSt) : List Item → RwRes
  | [] => .go s
  | i :: is =>
    match rwItem stop s i with
    | .go s' => rwItems stop s' is
    | r => r

/-- The transactions undone by a rewind over the given items (newest first), `none` for
undefined behaviour. -/
def rewindOut (stop : Option Nat → Option Nat → Nat → Bool) (is : List Item) :
    Option (List Undone) :=
  match rwItems stop {} is with
  | .go s => some s.out
  | .stop s => some s.out
  | .bad => none

end Verif.Rewind
