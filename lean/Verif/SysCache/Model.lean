import Verif.SysCache.Cmp

/-!
# System caches: entries, the cache of a backend, removal

Model of `src/catalog/o_sys_cache.c`: one system cache kept in a plain (not TOAST) system tree,
shared by any number of backends, with the fast cache each backend keeps of it.  A key stands for
the database and the columns of the key.  Each function runs as one step: the entry is locked
(`o_sys_cache_lock`) while it is added or updated.
-/

namespace Verif.SysCache

/-- An entry of the tree: `OSysCacheKeyCommon` with the key, and the rest of the entry as one value.
`/repo/include/catalog/o_sys_cache.h:54-66`. -/
structure Entry where
  key : Nat
  lsn : Nat
  deleted : Bool
  val : Nat
deriving DecidableEq, Repr

/-- The tree of the cache, and for each backend its fast cache, the entry found last and the keys of
the undo records of its transaction, the newest first.  `lsn` is the position in the WAL.
`/repo/src/catalog/o_sys_cache.c:962-967`, `/repo/include/catalog/o_sys_cache.h:236-237,390-394`. -/
structure State where
  tree : List Entry
  fast : Nat → List Entry
  last : Nat → Option Entry
  undo : Nat → List Nat
  lsn : Nat

/-- One place of a table replaced (no counterpart in the C code: a write to the memory of one
backend, `/repo/include/catalog/o_sys_cache.h:236-237`). -/
def upd {α : Type} (f : Nat → α) (b : Nat) (v : α) : Nat → α := fun x => if x = b then v else f x

/-- What `o_sys_cache_get_from_tree` gives: nothing, an entry, or memory which was freed before.
`/repo/src/catalog/o_sys_cache.c:569-603`. -/
inductive Got where
  | none
  | ent (e : Entry)
  | freed
deriving DecidableEq, Repr

/-- The loop over the versions of one key, the oldest first: the version kept is freed before the
LSN of the next one is looked at.  `/repo/src/catalog/o_sys_cache.c:580-598`. -/
def treeLoop (l : Nat) : List Entry → Option Entry → Got
  | [], none => .none
  | [], some e => .ent e
  | t :: ts, kept =>
    if t.lsn > l then (match kept with | none => .none | some _ => .freed)
    else treeLoop l ts (some t)

/-- `o_sys_cache_get_from_tree`.  `/repo/src/catalog/o_sys_cache.c:569-603`; the scan from the bound
is simplified to the entries of the key, in the order of the tree. -/
def fromTree (tree : List Entry) (k l : Nat) : Got :=
  treeLoop l (tree.filter (fun e => e.key = k)) none

/-- `o_sys_cache_search`: the entry found last, else the fast cache, else the tree.  Neither of the
first two looks at the LSN.  `none` is undefined behaviour: freed memory is kept and returned.
`/repo/src/catalog/o_sys_cache.c:432-520`; the buckets of the fast cache are one list here, the
entries of one bucket are those with the same hash value `h`. -/
def search (h : Nat → Nat) (s : State) (b k l : Nat) : Option (State × Option Entry) :=
  match (s.last b).filter (fun e => h e.key = h k ∧ e.key = k) with
  | some e => some (s, some e)
  | none =>
    match (s.fast b).find? (fun e => h e.key = h k ∧ e.key = k) with
    | some e => some ({ s with last := upd s.last b (some e) }, some e)
    | none =>
      match fromTree s.tree k l with
      | .none => some (s, none)
      | .freed => none
      | .ent e => some ({ s with fast := upd s.fast b (s.fast b ++ [e]),
                                 last := upd s.last b (some e) }, some e)

/-- The insertion of an entry at its place: the versions of a key are ordered by LSN.
`/repo/src/catalog/o_sys_cache.c:719-727,2346-2394`. -/
def treeInsert (e : Entry) : List Entry → List Entry
  | [] => [e]
  | x :: xs => if x.key = e.key ∧ e.lsn < x.lsn then e :: x :: xs else x :: treeInsert e xs

/-- `o_sys_cache_update`: the first version found by the key, without the LSN, is replaced.
`/repo/src/catalog/o_sys_cache.c:816-838`. -/
def treeUpdate (e : Entry) : List Entry → List Entry
  | [] => []
  | x :: xs => if x.key = e.key then e :: xs else x :: treeUpdate e xs

/-- The entry of a key in the memory of a backend is changed in place; the fast cache and the entry
found last point to the same memory.  `/repo/src/catalog/o_sys_cache.c:939-940,957-958`. -/
def setCached (s : State) (b : Nat) (e : Entry) : State :=
  { s with fast := upd s.fast b ((s.fast b).map (fun x => if x.key = e.key then e else x)),
           last := upd s.last b ((s.last b).map (fun x => if x.key = e.key then e else x)) }

/-- `o_sys_cache_add_if_needed` with the LSN of the caller.
`/repo/src/catalog/o_sys_cache.c:891-919`. -/
def addIfNeeded (h : Nat → Nat) (s : State) (b k v l : Nat) : Option State :=
  match search h s b k l with
  | none => none
  | some (s', some _) => some s'
  | some (s', none) => some { s' with tree := treeInsert ⟨k, l, false, v⟩ s'.tree }

/-- `o_sys_cache_update_if_needed`: the entry found is filled anew and written.
`/repo/src/catalog/o_sys_cache.c:921-945`; the lock kept when there is no entry is left out. -/
def updateIfNeeded (h : Nat → Nat) (s : State) (b k v : Nat) : Option State :=
  match search h s b k s.lsn with
  | none => none
  | some (s', none) => some s'
  | some (s', some e) =>
    let e' : Entry := { e with val := v }
    some { setCached s' b e' with tree := treeUpdate e' s'.tree }

/-- `update_deleted_value`: the flag of the entry found is set and the entry written; true if the
tree had the entry.  `/repo/src/catalog/o_sys_cache.c:947-960`. -/
def setDeleted (h : Nat → Nat) (s : State) (b k : Nat) (d : Bool) : Option (State × Bool) :=
  match search h s b k s.lsn with
  | none => none
  | some (s', none) => some (s', false)
  | some (s', some e) =>
    let e' : Entry := { e with deleted := d }
    some ({ setCached s' b e' with tree := treeUpdate e' s'.tree },
      s'.tree.any (fun x => x.key = k))

/-- `o_sys_cache_delete`, which leaves an undo record if the flag was written.
`/repo/src/catalog/o_sys_cache.c:1036-1046`. -/
def delete (h : Nat → Nat) (s : State) (b k : Nat) : Option State :=
  match setDeleted h s b k true with
  | none => none
  | some (s', true) => some { s' with undo := upd s'.undo b (k :: s'.undo b) }
  | some (s', false) => some s'

/-- The undo records of the transaction are applied: `o_sys_cache_delete_callback` for each.
`/repo/src/catalog/o_sys_cache.c:1021-1034`. -/
def undoAll (h : Nat → Nat) (b : Nat) : List Nat → State → Option State
  | [], s => some s
  | k :: ks, s =>
    match setDeleted h s b k false with
    | none => none
    | some (s', _) => undoAll h b ks s'

/-- `invalidate_fastcache_entry`: the bucket of the hash value is dropped, and the entry found last
if it was of that bucket.  `/repo/src/catalog/o_sys_cache.c:367-405`. -/
def inval (h : Nat → Nat) (s : State) (b hv : Nat) : State :=
  if (s.fast b).any (fun e => h e.key = hv) then
    { s with fast := upd s.fast b ((s.fast b).filter (fun e => h e.key ≠ hv)),
             last := upd s.last b ((s.last b).filter (fun e => h e.key ≠ hv)) }
  else s

/-- `o_sys_cache_delete_by_lsn`: entries marked as deleted which were *added* before the given
position are removed.  `/repo/src/catalog/o_sys_cache.c:1048-1124`. -/
def deleteByLsn (s : State) (redo : Nat) : State :=
  { s with tree := s.tree.filter (fun e => ¬ (e.lsn < redo ∧ e.deleted = true)) }

/-- What happens to the cache. -/
inductive Op where
  /-- A backend looks up a key at an LSN.  `/repo/include/catalog/o_sys_cache.h:336-353`. -/
  | search (b k l : Nat)
  /-- A backend needs the entry of an object; `l` is the LSN it read before.
  `/repo/include/catalog/o_sys_cache.h:370-386`. -/
  | add (b k v l : Nat)
  /-- An object is altered.  `/repo/include/catalog/o_sys_cache.h:361-369`. -/
  | update (b k v : Nat)
  /-- An object is dropped, by a transaction still open.  `/repo/src/catalog/ddl.c:3631-3651`. -/
  | delete (b k : Nat)
  /-- The transaction of a backend commits: its undo records are forgotten.
  `/repo/src/transam/undo.c:171-175`. -/
  | commit (b : Nat)
  /-- The transaction of a backend aborts.  `/repo/src/transam/undo.c:171-175`. -/
  | abort (b : Nat)
  /-- A backend handles an invalidation message: the hash value of a key, or zero for all keys.
  `/repo/src/catalog/o_sys_cache.c:407-412`. -/
  | inval (b hv : Nat)
  /-- A checkpoint removes entries.  `/repo/src/checkpoint/checkpoint.c:2350-2353`. -/
  | checkpoint (redo : Nat)
  /-- WAL is written.  `/repo/include/catalog/o_sys_cache.h:390-394`. -/
  | tick (n : Nat)
deriving DecidableEq, Repr

/-- One step; `none` is undefined behaviour.  The functions are cited at their definitions above
(`/repo/src/catalog/o_sys_cache.c:367-1124`). -/
def step (h : Nat → Nat) (s : State) : Op → Option State
  | .search b k l => (search h s b k l).map (·.1)
  | .add b k v l => addIfNeeded h s b k v (min l s.lsn)
  | .update b k v => updateIfNeeded h s b k v
  | .delete b k => delete h s b k
  | .commit b => some { s with undo := upd s.undo b [] }
  | .abort b => (undoAll h b (s.undo b) s).map (fun s' => { s' with undo := upd s'.undo b [] })
  | .inval b hv => some (inval h s b hv)
  | .checkpoint redo => some (deleteByLsn s (min redo s.lsn))
  | .tick n => some { s with lsn := s.lsn + n }

/-- A sequence of steps (`/repo/src/catalog/o_sys_cache.c:367-1124`). -/
def run (h : Nat → Nat) : State → List Op → Option State
  | s, [] => some s
  | s, o :: os => match step h s o with
    | none => none
    | some s' => run h s' os

/-- No entries, empty caches.  `/repo/src/catalog/o_sys_cache.c:138-181`. -/
def init : State := ⟨[], fun _ => [], fun _ => none, fun _ => [], 0⟩

/-! ## The copy made for a new database -/

/-- A column of a key in memory: a value, a pointer to a name, or the offset of a name stored behind
the key.  `/repo/include/catalog/o_sys_cache.h:62-70`. -/
inductive Cell where
  | val (v : Nat)
  | ptr (name : List Nat)
  | off (n : Nat)
deriving DecidableEq, Repr

/-- An entry with its key in full.  `names` are the names stored behind the key, `dataLength` their
length in bytes.  `/repo/include/catalog/o_sys_cache.h:54-66`. -/
structure Row where
  datoid : Nat
  lsn : Nat
  deleted : Bool
  dataLength : Nat
  cells : List Cell
  names : List (List Nat)
  val : Nat
deriving DecidableEq, Repr

/-- The loop over the columns in `o_sys_cache_add`: the column of a name is read as a pointer, the
name is stored and the column becomes an offset.  `none`: a number which is no address is read as
one.  `/repo/src/catalog/o_sys_cache.c:672-717`; an offset counts names, not bytes. -/
def storeCells : List Cell → List (List Nat) → Option (List Cell × List (List Nat))
  | [], names => some ([], names)
  | .val v :: cs, names => (storeCells cs names).map (fun r => (.val v :: r.1, r.2))
  | .ptr n :: cs, names =>
    (storeCells cs (names ++ [n])).map (fun r => (.off names.length :: r.1, r.2))
  | .off _ :: _, _ => none

/-- `o_sys_cache_add` for a plain tree.  `/repo/src/catalog/o_sys_cache.c:656-763`; the place in the
tree is left out, the entry is appended. -/
def addRow (tree : List Row) (key : Row) : Option (List Row) :=
  match storeCells key.cells [] with
  | none => none
  | some (cells, names) =>
    some (tree ++ [{ key with cells := cells, names := names, dataLength := 64 * names.length }])

/-- `o_sys_cache_copy_tree` for a plain tree: every entry of the database not marked as deleted is
copied as it is stored, and given to `o_sys_cache_add` both as the key and as the entry.
`/repo/src/catalog/o_sys_cache.c:2767-2840`; the entries added meanwhile belong to the other
database and are passed over. -/
def copyTree (src dst cur : Nat) : List Row → List Row → Option (List Row)
  | [], tree => some tree
  | r :: rs, tree =>
    if r.datoid = src ∧ r.deleted = false then
      match addRow tree { r with datoid := dst, lsn := cur, deleted := false } with
      | none => none
      | some tree' => copyTree src dst cur rs tree'
    else copyTree src dst cur rs tree

/-- The name of a column: `O_KEY_GET_NAME`.  `/repo/include/catalog/o_sys_cache.h:68-70`. -/
def rowName (r : Row) : Cell → Option (List Nat)
  | .ptr n => if r.dataLength = 0 then some n else none
  | .off i => if r.dataLength = 0 then none else r.names[i]?
  | .val _ => none

end Verif.SysCache
