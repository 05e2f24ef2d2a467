/-!
# The directory of the spool

The directory is named by the transaction which has made the index known.  The states of one table with
one index built concurrently.
-/

namespace Verif.Cic.Life

/-- The index: not there, being built since transaction `x` (`createOxid`), finished.
include/catalog/o_indices.h:38-53; src/catalog/o_indices.c:1399. -/
inductive Index where
  | none
  | building (x : Nat)
  | valid (x : Nat)
deriving DecidableEq, Repr

/-- The state: the index in the system trees, the directories on disk (each by its transaction), the next
transaction, and the directory whose file each process has open.  `CICSpoolWriter`:
src/catalog/cic_spool.c:50-60. -/
structure St where
  index : Index
  dirs : List Nat
  xid : Nat
  writer : Nat → Option Nat

/-- What can happen.  `fails`: the second part of the build ends with an error.  `crash`: also the restart
after it. -/
inductive Ev where
  | ambuild
  | finish
  | fails
  | drop
  | crash
  | exit (b : Nat)
  | insert (b : Nat)
deriving DecidableEq, Repr

/-- The beginning. -/
def init : St := ⟨.none, [], 0, fun _ => none⟩

/-- The part of an INSERT by process `b` for the index; `none` if it is an error.  A file in a directory
which is not there cannot be created.  `ensure_writer_open`: src/catalog/cic_spool.c:134-174;
src/tableam/operations.c:2501-2531. -/
def insert (s : St) (b : Nat) : Option St :=
  match s.index with
  | .building x =>
    if s.writer b = some x then some s
    else if x ∈ s.dirs then some { s with writer := fun b' => if b' = b then some x else s.writer b' }
    else none
  | _ => some s

/-- One step.  `ambuild`: src/indexam/handler.c:395-408.  `finish`, in another transaction: the flip and
`cic_spool_drop_dir` with its own number (src/catalog/indices.c:1064-1081; src/catalog/cic_spool.c:
748-782).  A failure leaves everything (src/catalog/indices.c:971-972).  DROP INDEX does not touch the
directory (there is no other call of `cic_spool_drop_dir`).  After recovery all directories are removed
(`cic_spool_cleanup_orphans`: src/catalog/cic_spool.c:822-844; src/orioledb.c:414-419). -/
def step (s : St) : Ev → St
  | .ambuild =>
    match s.index with
    | .none => { s with index := .building s.xid, dirs := s.xid :: s.dirs, xid := s.xid + 1 }
    | _ => s
  | .finish =>
    match s.index with
    | .building x => { s with index := .valid x, dirs := s.dirs.filter (fun d => d != s.xid), xid := s.xid + 1 }
    | _ => s
  | .fails => { s with xid := s.xid + 1 }
  | .drop => { s with index := .none, xid := s.xid + 1 }
  | .crash => { s with dirs := [], writer := fun _ => none }
  | .exit b => { s with writer := fun b' => if b' = b then none else s.writer b' }
  | .insert b => (insert s b).getD s

/-- A run. -/
def run (s : St) (evs : List Ev) : St := evs.foldl step s

end Verif.Cic.Life
