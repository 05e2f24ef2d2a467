/-!
# Trees of dropped, truncated and created relations

Model of the part of `src/btree/undo.c` that remembers the trees of a relation until the
end of the transaction, and of the list of drops deferred because of a running backup.

`T` is the type of tree identifiers (`OIndexKey`, `include/utils/seq_buf.h:24-27`, four
object ids); for the undo records what they are does not matter.
-/

namespace Verif.Relnode

variable {T : Type}

/-- `RelnodeUndoStackItem` (`include/btree/undo.h:141-152`), without the database, the
relation id and the stack header.  Relation nodes are present or invalid (`none`).  An
element of the array is `none` while its memory is not written. -/
structure Item (T : Type) where
  oldRelnode : Option Nat
  newRelnode : Option Nat
  oldNumTrees : Nat
  newNumTrees : Nat
  fsync : Bool
  trees : List (Option T)

/-- `memcpy(&item->trees[i], src, sizeof(OIndexKey) * n)` (`src/btree/undo.c:1138-1140`,
`1145-1147`).  `none`, undefined behaviour, if it reads or writes outside of the arrays.
Copying nothing is always fine. -/
def copyTrees (trees : List (Option T)) (i : Nat) (src : List T) (n : Nat) :
    Option (List (Option T)) :=
  if n = 0 then some trees
  else if n ≤ src.length ∧ i + n ≤ trees.length then
    some (trees.take i ++ (src.take n).map some ++ trees.drop (i + n))
  else none

/-- `offsetof(RelnodeUndoStackItem, trees)` (`include/btree/undo.h:141-152`): the header
`OnCommitUndoStackItem` of 24 bytes (`include/transam/undo.h:256-268`), six four-byte
fields, the flag, aligned to four. -/
def treesOffset : Nat := 52

/-- `sizeof(OIndexKey)` (`include/utils/seq_buf.h:24-27`, `include/orioledb.h:273-281`). -/
def treeSize : Nat := 16

/-- `O_MAX_UNDO_RECORD_SIZE` (`include/btree/undo.h:165`, `173`, `63-66`): the image header
aligned to eight and two pages. -/
def maxRecordSize : Nat := 8 + 2 * 8192

/-- `stepItemsCapacity` (`src/btree/undo.c:1092`). -/
def capacity : Nat := (maxRecordSize - treesOffset) / treeSize

/-- One turn of the loop of `add_undo_relnode` (`src/btree/undo.c:1104-1158`): the item
written.  The capacity is a parameter.  The stack of the transaction is not modelled here;
the items are in the order they are pushed. -/
def stepItem (cap : Nat) (oldRel newRel : Option Nat) (fsync : Bool)
    (old new : List T) : Option (Item T) :=
  let stepOld := min old.length cap
  let stepNew := min new.length (cap - stepOld)
  let blank : List (Option T) := List.replicate (stepOld + stepNew) none
  match (if old.length > 0 then copyTrees blank 0 old stepOld else some blank) with
  | none => none
  | some t1 =>
    match (if new.length > 0 then copyTrees t1 old.length new stepNew else some t1) with
    | none => none
    | some t2 => some ⟨oldRel, newRel, stepOld, stepNew, fsync, t2⟩

/-- The loop of `add_undo_relnode` (`src/btree/undo.c:1104-1158`).  `none` is undefined
behaviour or a loop that does not end within `fuel` turns. -/
def addLoop (cap : Nat) (oldRel newRel : Option Nat) (fsync : Bool) :
    (fuel : Nat) → (old new : List T) → Option (List (Item T))
  | 0, _, _ => none
  | fuel + 1, old, new =>
    if old.length + new.length > 0 then
      match stepItem cap oldRel newRel fsync old new with
      | none => none
      | some it =>
        match addLoop cap oldRel newRel fsync fuel
          (old.drop (min old.length cap))
          (new.drop (min new.length (cap - min old.length cap))) with
        | none => none
        | some rest => some (it :: rest)
    else some []

/-- `add_undo_relnode` (`src/btree/undo.c:1084-1159`). -/
def addUndoRelnode (oldRel newRel : Option Nat) (fsync : Bool) (old new : List T) :
    Option (List (Item T)) :=
  addLoop capacity oldRel newRel fsync (old.length + new.length + 1) old new

/-- `add_undo_truncate_relnode` (`src/btree/undo.c:1161-1173`). -/
def addTruncate (oldRel newRel : Nat) (fsync : Bool) (old new : List T) :
    Option (List (Item T)) :=
  addUndoRelnode (some oldRel) (some newRel) fsync old new

/-- `add_undo_drop_relnode` (`src/btree/undo.c:1175-1182`). -/
def addDrop (rel : Nat) (trees : List T) : Option (List (Item T)) :=
  addUndoRelnode (some rel) none false trees []

/-- `add_undo_create_relnode` (`src/btree/undo.c:1184-1191`). -/
def addCreate (rel : Nat) (fsync : Bool) (trees : List T) : Option (List (Item T)) :=
  addUndoRelnode none (some rel) fsync [] trees

/-- Stages a callback is called for (`OUndoCallbackStage`, used in
`src/btree/undo.c:930`, `971`, `979`). -/
inductive Stage where
  | preCommit
  | commit
  | abort
  deriving DecidableEq

/-- What a callback does to trees: sync their files, remove them, put them on the list of
deferred drops.  An element is `none` if memory not written was read.  src/btree/undo.c:910-1079. -/
inductive Effect (T : Type) where
  | fsync (t : Option T)
  | cleanup (t : Option T)
  | deferDrop (ts : List (Option T))
  deriving DecidableEq

/-- `btree_relnode_undo_callback` (`src/btree/undo.c:910-1079`): what it does to trees.
`backup`: `have_backup_in_progress()`.  `cleanupNow`: the value of `doCleanup` for a
commit, true unless rewind is enabled and this is not the rewind worker (`971-974`).
Locks, invalidation messages, checkpoint numbers and bridge markers are not modelled. -/
def callback (backup cleanupNow : Bool) (stage : Stage) (it : Item T) : List (Effect T) :=
  let newTrees := (it.trees.drop it.oldNumTrees).take it.newNumTrees
  let oldTrees := it.trees.take it.oldNumTrees
  match stage with
  | .preCommit => if it.newRelnode.isSome && it.fsync then newTrees.map .fsync else []
  | .commit =>
    if backup && cleanupNow then [.deferDrop oldTrees]
    else if it.oldRelnode.isSome && cleanupNow then oldTrees.map .cleanup
    else []
  | .abort => if it.newRelnode.isSome then newTrees.map .cleanup else []

/-- All items of a list processed (`walk_undo_stack`, `src/transam/undo.c`, walks the
stack from the newest item to the oldest on abort; the order does not matter for what is
stated here, and the order of the pushes is used).  src/transam/undo.c:1417-1497. -/
def process (backup cleanupNow : Bool) (stage : Stage) (its : List (Item T)) :
    List (Effect T) :=
  its.flatMap (callback backup cleanupNow stage)

/-! ## The list of deferred drops -/

/-- A byte.  Auxiliary of the model, without counterpart in /repo. -/
abbrev Byte := Fin 256

/-- `FileWrite` of some bytes at an offset (`src/btree/undo.c:795`, `804`, `813`): the file
grows with zeros if needed.  Failures of the system are not modelled. -/
def fileWrite (f : List Byte) (off : Nat) (b : List Byte) : List Byte :=
  if b = [] then f
  else
    let f' := f ++ List.replicate (off - f.length) 0
    f'.take off ++ b ++ f'.drop (off + b.length)

/-- `FileRead` of exactly `n` bytes at an offset (`src/btree/undo.c:865`, `874`, `892`);
`none` if there are fewer. -/
def fileRead (f : List Byte) (off n : Nat) : Option (List Byte) :=
  if off + n ≤ f.length then some ((f.drop off).take n)
  else if n = 0 then some []
  else none

/-- The four bytes of an `int`, little-endian (x86). -/
def intBytes (n : Nat) : List Byte :=
  [Fin.ofNat 256 n, Fin.ofNat 256 (n / 256), Fin.ofNat 256 (n / 65536),
   Fin.ofNat 256 (n / 16777216)]

/-- The number in bytes, little-endian.  src/btree/undo.c:858-900 reads numbers. -/
def bytesNat : List Byte → Nat
  | [] => 0
  | b :: r => b.val + 256 * bytesNat r

/-- The file and `pendingTruncatesLocation` (`include/transam/undo.h:232-237`). -/
structure Pending where
  file : List Byte
  loc : Nat

/-- One deferred drop: the bytes of the relation's ids and of the ids of its trees.
src/btree/undo.c:776-825. -/
structure Drop where
  rel : List Byte
  trees : List (List Byte)

/-- Ids are sixteen bytes.  include/orioledb.h:273-281. -/
def Drop.Ok (d : Drop) : Prop :=
  d.rel.length = 16 ∧ (∀ t ∈ d.trees, t.length = 16) ∧ d.trees.length < 2 ^ 31

/-- `add_pending_truncate` (`src/btree/undo.c:776-825`).  The third write takes its bytes
from the address of the parameter `trees`, that is from the stack, not from the array of
trees (`813`): these bytes are the parameter `stack`, any bytes of the right number.
(Reading behind the parameter is undefined behaviour; this is the mildest reading of it.) -/
def addPending (stack : List Byte) (p : Pending) (d : Drop) : Pending :=
  let n := d.trees.length
  let f1 := fileWrite p.file p.loc d.rel
  let f2 := fileWrite f1 0 (intBytes n)
  let f3 := fileWrite f2 0 stack
  ⟨f3, p.loc + 16 + 4 + 16 * n⟩

/-- Result of `check_pending_truncates`: the trees whose files were removed, and whether it
came to its end or stopped with `FATAL`.  src/btree/undo.c:827-908. -/
structure Checked where
  removed : List (List Byte)
  fatal : Bool
  pending : Pending

/-- The bytes cut in pieces of sixteen.  src/btree/undo.c:858-900. -/
def pieces : Nat → List Byte → List (List Byte)
  | 0, _ => []
  | n + 1, b => b.take 16 :: pieces n (b.drop 16)

/-- The loop of `check_pending_truncates` (`src/btree/undo.c:858-900`).  A negative number
of trees makes the length of the read exceed every file; so does a number for which the
allocation (`880-887`) fails. -/
def checkLoop (f : List Byte) (maxOff : Nat) :
    (fuel : Nat) → (off : Nat) → (removed : List (List Byte)) → List (List Byte) × Bool
  | 0, _, removed => (removed, false)
  | fuel + 1, off, removed =>
    if off < maxOff then
      match fileRead f off 16 with
      | none => (removed, true)
      | some _ =>
        match fileRead f (off + 16) 4 with
        | none => (removed, true)
        | some nb =>
          match fileRead f (off + 20) (16 * bytesNat nb) with
          | none => (removed, true)
          | some tb =>
            checkLoop f maxOff fuel (off + 20) (removed ++ pieces (bytesNat nb) tb)
    else (removed, false)

/-- `check_pending_truncates` (`src/btree/undo.c:827-908`), called by the background writer
(`src/workers/bgwriter.c:217`).  The lock is taken for the whole run. -/
def checkPending (backup : Bool) (p : Pending) : Checked :=
  if backup || p.loc == 0 then ⟨[], false, p⟩
  else
    let r := checkLoop p.file p.loc (p.loc + 1) 0 []
    ⟨r.1, r.2, if r.2 then p else ⟨p.file, 0⟩⟩

end Verif.Relnode
