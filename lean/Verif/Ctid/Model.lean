/-!
# Row identifiers and identifiers for bridged indexes: model

A table without a primary key numbers its rows, a table with bridged indexes numbers its rows once more
for these; each from a counter in the meta page of the primary index.  Recovery begins with the counters
of the last checkpoint.
-/

namespace Verif.Ctid

/-- Block and offset of an `ItemPointerData`. -/
abbrev Tid := Nat × Nat

/-- `btree_ctid_from_seq`, src/btree/btree.c:273-285, with `M` for `MaxOffsetNumber` (2048 for blocks of
8 kB); the casts to 32 and 16 bits included. -/
def fromSeq (M n : Nat) : Tid := (n / (M - 1) % 2 ^ 32, (n % (M - 1) + 1) % 2 ^ 16)

/-- The inverse, in `btree_ctid_update_if_needed`, src/btree/btree.c:306-307. -/
def toSeq (M : Nat) (t : Tid) : Nat := t.1 * (M - 1) + (t.2 - 1)

/-- Where a process is in `btree_ctid_update_if_needed`, src/btree/btree.c:298-317: at the read of the
counter (`read`), or at the compare-and-swap, with the value read before (`cas`). -/
inductive Pc where
  | idle
  | read (t : Tid)
  | cas (t : Tid) (old : Nat)
deriving DecidableEq, Repr

/-- `ctid` of the meta page (src/btree/btree.c:291) with the processes; and, for the properties, the
identifiers given out, the last one first, and those of rows replayed. -/
structure St where
  ctr : Nat
  pcs : Nat → Pc
  issued : List Tid
  noted : List Tid

/-- Steps: `get` is `btree_ctid_get_and_inc` (src/btree/btree.c:287-296), one atomic operation; `start`
calls `btree_ctid_update_if_needed` for a replayed row (src/recovery/worker.c:978-983), `go` is its next
atomic operation. -/
inductive Step where
  | get
  | start (p : Nat) (t : Tid)
  | go (p : Nat)
deriving DecidableEq, Repr

/-- The place of one process; for `Step`, src/btree/btree.c:298-317. -/
def setPc (f : Nat → Pc) (p : Nat) (x : Pc) : Nat → Pc := fun q => if q = p then x else f q

/-- One step, src/btree/btree.c:287-317. -/
def step (M : Nat) (s : St) : Step → St
  | .get => { s with ctr := s.ctr + 1, issued := fromSeq M s.ctr :: s.issued }
  | .start p t => { s with pcs := setPc s.pcs p (.read t) }
  | .go p =>
    match s.pcs p with
    | .idle => s
    | .read t =>
      if s.ctr ≥ toSeq M t + 1 then { s with pcs := setPc s.pcs p .idle, noted := t :: s.noted }
      else { s with pcs := setPc s.pcs p (.cas t s.ctr) }
    | .cas t old =>
      if s.ctr = old then
        { s with ctr := toSeq M t + 1, pcs := setPc s.pcs p .idle, noted := t :: s.noted }
      else { s with pcs := setPc s.pcs p (.read t) }

/-- Steps of all processes in any order; for src/btree/btree.c:287-317. -/
def exec (M : Nat) (s : St) (l : List Step) : St := l.foldl (step M) s

/-- The identifier made in `btree_bridge_ctid_get_and_inc`, src/btree/btree.c:335-337, with `H` for
`MaxHeapTuplesPerPage` (291 for blocks of 8 kB) and `B` for `max_block_number`. -/
def bridgeTid (H B n : Nat) : Tid := (n / H % B, n % H + 1)

/-- `overflow` of `btree_bridge_ctid_get_and_inc`, src/btree/btree.c:333. -/
def overflow (H B n : Nat) : Bool := decide (n / H ≥ B)

/-- `bridge_ctid` of the meta page (src/btree/btree.c:324), its value in the last checkpoint
(src/checkpoint/checkpoint.c:3283), the identifiers in the bridge index, and whether an INSERT failed
with a duplicate. -/
structure Br where
  ctr : Nat
  chk : Nat
  entries : List Tid
  failed : Bool
deriving DecidableEq, Repr

/-- Operations on the bridge index.  `attempt` is one turn of the loop at
src/tableam/operations.c:338-364, `erase` the removal of an entry by VACUUM (src/tableam/vacuum.c:909)
or undo. -/
inductive Op where
  | attempt
  | erase (t : Tid)
  | checkpoint
  | crash
deriving DecidableEq, Repr

/-- One operation.  `attempt`: src/tableam/operations.c:338-364 – the bridge index is unique by the
identifier alone (src/catalog/o_indices.c:723-725); an identifier in use is an error if the counter did
not overflow, else the next one is tried.  `crash`: the counter is that of the checkpoint
(src/checkpoint/checkpoint.c:6091), the entries made since are replayed; replay of a row hands its
identifier for the bridge to `btree_ctid_update_if_needed` (src/recovery/worker.c:985-992), which changes
the counter `ctid` (src/btree/btree.c:313-316), not this one.  Simplified: all entries are in WAL at the
crash; an entry deleted but not yet removed stays in the way. -/
def bstep (H B : Nat) (s : Br) : Op → Br
  | .attempt =>
    if bridgeTid H B s.ctr ∈ s.entries then
      { s with ctr := s.ctr + 1, failed := s.failed || !overflow H B s.ctr }
    else { s with ctr := s.ctr + 1, entries := bridgeTid H B s.ctr :: s.entries }
  | .erase t => { s with entries := s.entries.filter fun x => decide (x ≠ t) }
  | .checkpoint => { s with chk := s.ctr }
  | .crash => { s with ctr := s.chk }

/-- Operations one after the other; for src/tableam/operations.c:338-364. -/
def bexec (H B : Nat) (s : Br) (l : List Op) : Br := l.foldl (bstep H B) s

end Verif.Ctid
