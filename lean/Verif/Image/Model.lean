/-!
# Replay over the image of a checkpoint

A checkpoint writes the pages of a tree while transactions go on.  The page with a given row is
written at some moment `m` after the moment `j` from which the log will be replayed, so the image may
hold versions of the row whose records are replayed later, written by transactions which the replay
has not met yet.  The model follows one row of the primary index: its chain of versions on the primary
server, the records written for it, the image, and what the replay of the records does to the image.

Not modelled: locks without a change, the release of savepoints and rollbacks to an outer savepoint
(see `Verif.Replay`), changes of the row's key, secondary indexes, more than one worker.
-/

namespace Verif.Image

/-- A version of the row.  `ver` is the version number in the tuple's header (src/tuple/format.c:815-830);
`val = none` is a deletion, which keeps the tuple, and so its `ver`; `time` is the position of the
record in the log, which stands for the undo location; `img` says that the version, and its undo
record, come from the checkpoint.  `BTreeLeafTuphdr`: include/btree/btree.h:395-440. -/
structure Ver where
  xid : Nat
  ver : Nat
  val : Option Nat
  time : Nat
  img : Bool
deriving DecidableEq, Repr

/-- The row: its newest version and the undo chain behind it. -/
abbrev Chain := List Ver

/-- The newest value.  A row that is not there and a row deleted are both `none`. -/
def top : Chain → Option Nat
  | [] => none
  | v :: _ => v.val

/-! ## The primary server -/

/-- What happens on the primary server.  `see` is a change of some other row.  `rb` is the abort of
the last subtransaction; `ROLLBACK TO` is followed by a new `sp`, because PostgreSQL begins the
subtransaction anew. -/
inductive Ev where
  | see (x : Nat)
  | ins (x v : Nat)
  | upd (x v : Nat)
  | del (x : Nat)
  | sp (x : Nat)
  | rb (x : Nat)
  | fin (x : Nat) (ok : Bool)
deriving DecidableEq, Repr

/-- The records.  `n` is the version number in the tuple or key which the record carries; `id` names
the parent of the subtransaction.  include/recovery/wal.h. -/
inductive Rec where
  | see (x : Nat)
  | ins (x v n : Nat)
  | upd (x v n : Nat)
  | del (x n : Nat)
  | sp (x id : Nat)
  | rb (x id : Nat)
  | fin (x : Nat) (ok : Bool)
deriving DecidableEq, Repr

/-- The primary server: the row, the transactions committed, those finished, the savepoints of each
transaction (the last one first), and the position in the log.  A savepoint is the parent of its
subtransaction and its own position; `SubXactUndoStackItem`: src/transam/undo.c:2812-2843. -/
structure PSt where
  chain : Chain
  done : Nat → Bool
  fin : Nat → Bool
  sps : Nat → List (Nat × Nat)
  now : Nat

/-- Change one value of a function. -/
def set {α : Type} (f : Nat → α) (x : Nat) (a : α) : Nat → α := fun y => if y = x then a else f y

/-- The subtransaction a savepoint's subtransaction is the child of, named by its position. -/
def parent : List (Nat × Nat) → Nat
  | [] => 0
  | (_, t) :: _ => t

/-- The version number of the next tuple: one more than that of the tuple found if the same
transaction wrote it, otherwise 0.  src/tableam/operations.c:2695-2714 (insert), 2900-2920 (update). -/
def nextVer (c : Chain) (x : Nat) : Nat :=
  match c with
  | [] => 0
  | v :: _ => if v.xid = x then v.ver + 1 else 0

/-- May `x` change the row now?  Otherwise it waits for the transaction which wrote the last version.
src/btree/modify.c:486-700. -/
def free (s : PSt) (x : Nat) : Bool :=
  match s.chain with
  | [] => true
  | v :: _ => v.xid == x || s.done v.xid

/-- One step of the primary server, with the record it writes; `none` if the step cannot happen.
A deletion's record carries the version of the tuple deleted (src/tuple/slot.c:1799-1800).  The
transaction which aborts and the rollback to a savepoint take the versions off the row at once;
src/transam/undo.c:2922-2958, src/btree/undo.c:140-330. -/
def pstep (s : PSt) (e : Ev) : Option (PSt × Rec) :=
  let s' := { s with now := s.now + 1 }
  match e with
  | .see x => if s.fin x then none else some (s', .see x)
  | .ins x v =>
    if s.fin x = false ∧ free s x = true ∧ top s.chain = none then
      some ({ s' with chain := ⟨x, nextVer s.chain x, some v, s.now, false⟩ :: s.chain },
            .ins x v (nextVer s.chain x))
    else none
  | .upd x v =>
    if s.fin x = false ∧ free s x = true ∧ top s.chain ≠ none then
      some ({ s' with chain := ⟨x, nextVer s.chain x, some v, s.now, false⟩ :: s.chain },
            .upd x v (nextVer s.chain x))
    else none
  | .del x =>
    match s.chain with
    | [] => none
    | v :: _ =>
      if s.fin x = false ∧ free s x = true ∧ v.val ≠ none then
        some ({ s' with chain := ⟨x, v.ver, none, s.now, false⟩ :: s.chain }, .del x v.ver)
      else none
  | .sp x =>
    if s.fin x then none
    else some ({ s' with sps := set s.sps x ((parent (s.sps x), s.now) :: s.sps x) },
               .sp x (parent (s.sps x)))
  | .rb x =>
    match s.sps x with
    | [] => none
    | (id, t) :: rest =>
      if s.fin x then none
      else some ({ s' with chain := s.chain.dropWhile (fun u => u.xid == x && decide (t ≤ u.time)),
                           sps := set s.sps x rest },
                 .rb x id)
  | .fin x ok =>
    if s.fin x then none
    else if ok then some ({ s' with done := set s.done x true, fin := set s.fin x true }, .fin x ok)
    else some ({ s' with chain := s.chain.dropWhile (fun u => u.xid == x), fin := set s.fin x true },
               .fin x ok)

/-- The primary server from a state: the state it comes to and the log it writes. -/
def prun (s : PSt) : List Ev → Option (PSt × List Rec)
  | [] => some (s, [])
  | e :: es =>
    match pstep s e with
    | none => none
    | some (s', r) =>
      match prun s' es with
      | none => none
      | some (s'', rs) => some (s'', r :: rs)

/-- At first the row is not there, or has been there for long (the transaction 0 has committed). -/
def pinit (v : Option Nat) : PSt :=
  { chain := match v with
      | none => []
      | some a => [⟨0, 0, some a, 0, false⟩]
    done := fun x => x == 0
    fin := fun x => x == 0
    sps := fun _ => []
    now := 1 }

/-! ## Recovery -/

/-- The process which replays: the row; the transactions committed; those for which `wal_xid` is set,
because a record of theirs has been read; the savepoints in the undo stack built by the replay; the
savepoints in the undo stack found in the checkpoint's file of transactions (`checkpoint_undo_stacks`,
`none` once it has been dropped); the position in the log.
`RecoveryXidState`: src/recovery/recovery.c:125-185. -/
structure St where
  chain : Chain
  done : Nat → Bool
  seen : Nat → Bool
  rsp : Nat → List (Nat × Nat)
  ck : Nat → Option (List (Nat × Nat))
  now : Nat

/-- Recovery begins with the page as written at `s2`, and with the log from `s1`.  The file of
transactions names those in progress at some time since `s1`; it holds the undo stack as it was when
the transaction ended, or when the file was written.  For a transaction which began later the model has
an empty stack, where the code has none.
`read_xids`: src/recovery/recovery.c:938-1065; src/checkpoint/checkpoint.c:1836-1864. -/
def start (s1 s2 : PSt) : St :=
  { chain := s2.chain.map (fun v => { v with img := true })
    done := s1.done
    seen := fun _ => false
    rsp := fun _ => []
    ck := fun x => if s1.fin x then none else some (s2.sps x)
    now := s1.now }

/-- Is the version's transaction not known as committed?  `xid_is_finished`:
src/transam/oxid.c:2192-2218, with src/recovery/recovery.c:1616-1632. -/
def undone (r : St) (v : Ver) : Bool := !r.done v.xid

/-- Changes of other transactions in the way.  The first version from above, among those not known as
committed, which is not `x`'s own is the conflict.  If no record of its transaction has been read, it
counts as aborted, and all versions not committed are taken off; if a record has been read, the
transaction is in progress, the wait returns at once, and the process tries again for ever: `none`.
`row_lock_conflicts`: src/btree/undo.c:1747-1945; `o_btree_modify_handle_conflicts`:
src/btree/modify.c:486-700; `recovery_map_oxid_csn`: src/recovery/recovery.c:1616-1632;
`wait_for_oxid`: src/transam/oxid.c:1224-1264. -/
def conflict (r : St) (x : Nat) (c : Chain) : Option Chain :=
  match (c.takeWhile (undone r)).find? (fun v => v.xid != x) with
  | none => some c
  | some v => if r.seen v.xid then none else some (c.dropWhile (undone r))

/-- The row after an insertion or an update with version number `n`: `x`'s own versions with a number
not less are undone first.  The code looks for conflicts again after each version undone; there is none,
because the versions left were looked at before.
`recovery_insert_primary_callback`, `recovery_insert_deleted_primary_callback`:
src/recovery/recovery.c:2488-2499, 2556-2568; src/btree/modify.c:240-275, 350-385. -/
def put (r : St) (x v n : Nat) (c : Chain) : Chain :=
  ⟨x, n, some v, r.now, false⟩ :: c.dropWhile (fun u => u.xid == x && decide (n ≤ u.ver))

/-- The row after an update once the trees are consistent: a row which is not there, or deleted, is
left alone.  `apply_tbl_update`: src/recovery/worker.c:1176-1300; `o_update_copy_callback`: 129-157;
src/btree/modify.c:405-420. -/
def putIf (r : St) (x v n : Nat) : Chain → Chain
  | [] => []
  | u :: c =>
    if u.val = none then u :: c
    else if u.xid = x ∧ n ≤ u.ver then putIf r x v n c
    else ⟨x, n, some v, r.now, false⟩ :: u :: c

/-- The row after a deletion with version number `n`: `x`'s own versions with a greater number are
undone first; a row which is not there, or deleted, is left alone.
`recovery_delete_primary_callback`: src/recovery/recovery.c:2501-2516; src/btree/modify.c:240-350,
405-420. -/
def del (r : St) (x n : Nat) : Chain → Chain
  | [] => []
  | u :: c =>
    if u.val = none then u :: c
    else if u.xid = x ∧ n < u.ver then del r x n c
    else ⟨x, u.ver, none, r.now, false⟩ :: u :: c

/-- The savepoint with parent `id` in the undo stack from the checkpoint: items of later
subtransactions are passed over.  `search_for_undo_sub_location` with `UndoStackHead`:
src/transam/undo.c:2855-2906. -/
def findHead (id : Nat) : List (Nat × Nat) → Option Nat
  | [] => none
  | (p, t) :: rest => if p = id then some t else if id < p then findHead id rest else none

/-- The part of a savepoint record, and of a rollback to a savepoint, which has to do with the undo
stack from the checkpoint: if the savepoint is in it, the changes after it are undone.
`checkpoint_rollback_to_savepoint`: src/recovery/recovery.c:2451-2464; `rollback_to_savepoint`:
src/transam/undo.c:2921-2958. -/
def ckBack (r : St) (x id : Nat) (c : Chain) : Chain :=
  match r.ck x with
  | none => c
  | some sps =>
    match findHead id sps with
    | none => c
    | some t => c.dropWhile (fun u => u.xid == x && u.img && decide (t ≤ u.time))

/-- After either of them the undo stack from the checkpoint is dropped, whether or not the savepoint
was found in it.  `walk_checkpoint_stacks`: src/recovery/recovery.c:1833-1834. -/
def ckDrop (r : St) (x : Nat) : Nat → Option (List (Nat × Nat)) := set r.ck x none

/-- The versions which a rollback to the savepoint `id` takes off, of those which the replay has
written: all after the savepoint, or all, if the replay has not met that savepoint.
`recovery_rollback_to_savepoint`: src/recovery/recovery.c:2475-2486; `search_for_undo_sub_location`
with `UndoStackTail`: src/transam/undo.c:2845-2906. -/
def back (r : St) (x id : Nat) (c : Chain) : Chain :=
  match r.rsp x with
  | [] => c.dropWhile (fun u => u.xid == x && !u.img)
  | (p, t) :: _ =>
    if p = id then c.dropWhile (fun u => u.xid == x && !u.img && decide (t ≤ u.time))
    else c.dropWhile (fun u => u.xid == x && !u.img)

/-- The savepoints left in the undo stack of the replay after a rollback to `id`.
src/transam/undo.c:2883-2904, 2957. -/
def backSp (r : St) (x id : Nat) : List (Nat × Nat) :=
  match r.rsp x with
  | [] => []
  | (p, _) :: rest => if p = id then rest else []

/-- An abort: the versions written by the replay are taken off, then those of the checkpoint's undo
stack, if it is still there.  src/recovery/recovery.c:2372-2380, 1993-1999. -/
def abort (r : St) (x : Nat) (c : Chain) : Chain :=
  let c := c.dropWhile (fun u => u.xid == x && !u.img)
  match r.ck x with
  | none => c
  | some _ => c.dropWhile (fun u => u.xid == x && u.img)

/-- The replay of one record; `none` if it never ends.  `late` is `toast_consistent`: before it an
update is replayed as an insertion, which also finds the row when it is there.
`apply_btree_modify_record`: src/recovery/recovery.c:2632-2706; src/recovery/worker.c:820-836;
`recovery_switch_to_oxid` sets `wal_xid`: src/recovery/recovery.c:2205. -/
def rstep (late : Bool) (r : St) (e : Rec) : Option St :=
  match e with
  | .see x => some { r with seen := set r.seen x true, now := r.now + 1 }
  | .ins x v n =>
    match conflict r x r.chain with
    | none => none
    | some c => some { r with chain := put r x v n c, seen := set r.seen x true, now := r.now + 1 }
  | .upd x v n =>
    match conflict r x r.chain with
    | none => none
    | some c =>
      some { r with chain := if late then putIf r x v n c else put r x v n c,
                    seen := set r.seen x true, now := r.now + 1 }
  | .del x n =>
    match conflict r x r.chain with
    | none => none
    | some c => some { r with chain := del r x n c, seen := set r.seen x true, now := r.now + 1 }
  | .sp x id =>
    some { r with chain := ckBack r x id r.chain, ck := ckDrop r x,
                  rsp := set r.rsp x ((id, r.now) :: r.rsp x), seen := set r.seen x true, now := r.now + 1 }
  | .rb x id =>
    some { r with chain := ckBack r x id (back r x id r.chain), ck := ckDrop r x,
                  rsp := set r.rsp x (backSp r x id), seen := set r.seen x true, now := r.now + 1 }
  | .fin x ok =>
    if ok then some { r with done := set r.done x true, seen := set r.seen x true, now := r.now + 1 }
    else some { r with chain := abort r x r.chain, seen := set r.seen x true, now := r.now + 1 }

/-- The replay of a list of records. -/
def replay (late : Bool) (r : St) : List Rec → Option St
  | [] => some r
  | e :: es =>
    match rstep late r e with
    | none => none
    | some r' => replay late r' es

/-- The value of the row when recovery is over.  The transactions without a finish record are aborted;
what is left on the row belongs to transactions below the horizon, which count as committed.
`recovery_finish`: src/recovery/recovery.c:1938-2060; `xid_is_finished`: src/transam/oxid.c:2209-2212. -/
def ended (r : St) : Option Nat :=
  top (r.chain.dropWhile (fun v => undone r v && (!v.img || (r.ck v.xid).isSome)))

end Verif.Image
