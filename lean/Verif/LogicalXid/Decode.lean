import Verif.LogicalXid.Model

/-!
# Savepoints in logical decoding

One transaction of one backend without a heap xid: how the WAL records it writes are
attributed to logical ids, and what the decoder does with them.

Assumption about PostgreSQL's reorder buffer (not part of the repository): it keeps
queued changes per transaction id, and `ReorderBufferAbort(x)` throws the queue of `x`
away.  Not modelled: what is sent to the output plugin at commit.
-/

namespace Verif.LogicalXid

/-- What the transaction does (the writer functions src/recovery/wal.c:74-135,
659-679, 682-725; releasing a savepoint writes nothing).  `savepoint x`: a
subtransaction starts and is assigned the id `x`; `flush`: the local WAL buffer is
written out. -/
inductive Op
  | change (c : Nat)
  | savepoint (x : Nat)
  | release
  | rollback
  | flush
deriving DecidableEq, Repr

/-- The backend (src/transam/oxid.c:108, 143; src/recovery/wal.c:32-43) and the decoder
(src/recovery/logical.c:1108-1209, 1308) together. -/
structure Dec where
  /-- `logicalXidContext.xid` -/
  ctx : Nat
  /-- ids of the enclosing (sub)transactions, innermost first -/
  stack : List Nat
  /-- the id the reader attributes the next record of the container to; `none` when
  the container has no xid record yet (`contains_xid`, src/recovery/wal.c:36) -/
  tag : Option Nat
  /-- queued changes: id, change -/
  queue : List (Nat × Nat)
  /-- subtransactions known to the decoder: parent, child -/
  subs : List (Nat × Nat)
deriving DecidableEq, Repr

/-- A transaction with id `x0` (src/transam/oxid.c:1735). -/
def Dec.start (x0 : Nat) : Dec := ⟨x0, [], none, [], []⟩

/-- The id a record is attributed to: `add_xid_wal_record_if_needed`
(src/recovery/wal.c:456-467) writes the current id unless the container already has an
xid record; the reader takes the last one read. -/
def Dec.cur (s : Dec) : Nat := s.tag.getD s.ctx

/-- Ids whose queue is thrown away by a rollback-to-savepoint record with id `x`: its
subtransactions and itself (src/recovery/logical.c:1189-1200). -/
def Dec.aborted (s : Dec) (x : Nat) : List Nat :=
  x :: (s.subs.filter (fun e => e.1 == x)).map (·.2)

/-- One operation, written and decoded: lines cited at each case.  Simplified: records
are decoded at once, and only changes of a table's primary index count. -/
def Dec.step (s : Dec) : Op → Dec
  | .change c =>
    -- wal.c:126 (xid record if needed), logical.c:1308 (ReorderBufferQueueChange)
    { s with
      tag := some s.cur
      queue := s.queue ++ [(s.cur, c)] }
  | .savepoint x =>
    -- oxid.c:614-640; the record carries its own id, which the reader takes over
    -- (wal.c:659-679, wal_reader.c:217-228); logical.c:1108-1115.  A subtransaction
    -- already known is not assigned again.
    { ctx := x
      stack := s.ctx :: s.stack
      tag := some x
      queue := s.queue
      subs := if (s.subs.map (·.2)).contains x then s.subs else s.subs ++ [(s.ctx, x)] }
  | .release =>
    -- oxid.c:674-723 without a heap xid: no record is written
    match s.stack with
    | [] => s
    | y :: ys => { s with
                   ctx := y
                   stack := ys }
  | .rollback =>
    -- undo.c:3041-3048, wal.c:682-725 (a fresh xid record, flush), oxid.c:725-762;
    -- logical.c:1117-1208
    match s.stack with
    | [] => s
    | y :: ys =>
      { ctx := y
        stack := ys
        tag := none
        queue := s.queue.filter (fun e => !(s.aborted s.ctx).contains e.1)
        subs := s.subs.filter (fun e => e.2 != s.ctx && e.1 != s.ctx) }
  | .flush => { s with tag := none }

def Dec.run (s : Dec) : List Op → Dec
  | [] => s
  | o :: os => Dec.run (s.step o) os

/-! ## Specification -/

/-- The changes made so far and not rolled back, by open (sub)transaction, innermost
first: a released savepoint's changes belong to the enclosing one, a rolled back
savepoint's are gone. -/
def keep : List (List Nat) → Op → List (List Nat)
  | l :: ls, .change c => (l ++ [c]) :: ls
  | ls, .savepoint _ => [] :: ls
  | l :: m :: ls, .release => (m ++ l) :: ls
  | _ :: m :: ls, .rollback => m :: ls
  | ls, _ => ls

/-- Changes of the transaction that were not rolled back. -/
def survivors (ops : List Op) : List Nat := (ops.foldl keep [[]]).flatten

/-- **C46**: the decoder still has every change that was not rolled back. -/
def KeepsAll (x0 : Nat) (ops : List Op) : Prop :=
  ∀ c ∈ survivors ops, ∃ x, (x, c) ∈ ((Dec.start x0).run ops).queue

/-! ## The ids the allocator gives -/

/-- The transaction as the user sees it. -/
inductive Cmd
  | change (c : Nat)
  | savepoint
  | release
  | rollback
deriving DecidableEq, Repr

/-- The ids given when the process is alone in its map word `w` (its first position is
`base`; src/transam/oxid.c:482-534, 551): the lowest free bit, handed back at the end of the subtransaction.  `own` are
the bits of the open (sub)transactions, innermost first. -/
def assign (d xmin base : Nat) : Nat → List Nat → List Cmd → List Op
  | _, _, [] => []
  | w, own, .change c :: l => .change c :: assign d xmin base w own l
  | w, own, .savepoint :: l =>
    let b := lowZero w
    .savepoint (logicalId d xmin (base + b.log2)) :: assign d xmin base (w ||| b) (b :: own) l
  | w, b :: own, .release :: l => .release :: assign d xmin base (w &&& (ones ^^^ b)) own l
  | w, b :: own, .rollback :: l => .rollback :: assign d xmin base (w &&& (ones ^^^ b)) own l
  | w, [], .release :: l => .release :: assign d xmin base w [] l
  | w, [], .rollback :: l => .rollback :: assign d xmin base w [] l

end Verif.LogicalXid
