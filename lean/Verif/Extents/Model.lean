/-!
# Free extents of one data file, `src/catalog/free_extents.c`

The two system trees hold the free extents of all data files, keyed first by
(ixType, datoid, relnode); the model follows one such key.  Every process is a
small program whose steps are the individual (atomic) tree operations, so a
schedule is any interleaving of any number of processes.
-/

namespace Verif.Extents

/-- (offset, length): `FreeTreeFileExtent`, include/catalog/sys_trees.h:127-131. -/
abbrev Ext := Nat × Nat

/-- Program counters of `get_extent` (`g*`) and `free_extent` (`f*`) between two
tree operations; `off`/`len` are the extent found resp. being freed, `need` the
requested length, `l`/`r` the lengths of the neighbours found (the left one
ends at `off`, the right one starts at `off + len`).  src/catalog/free_extents.c:71-266, 282-474. -/
inductive PC where
  | idle
  /-- extent removed from (len, off); next: insert remainder into (off, len).
  src/catalog/free_extents.c:206-233 -/
  | g1 (off len need : Nat)
  /-- next: delete the extent from (off, len). src/catalog/free_extents.c:235-243 -/
  | g2 (off len need : Nat)
  /-- next: insert remainder into (len, off) and return.
  src/catalog/free_extents.c:245-265 -/
  | g3 (off len need : Nat)
  /-- next: first fetch from the backward iterator. src/catalog/free_extents.c:313-347 -/
  | f0 (off len : Nat)
  /-- right neighbour found; next: second fetch. src/catalog/free_extents.c:348-365 -/
  | f0b (off len r : Nat)
  /-- next: delete right neighbour from (len, off). src/catalog/free_extents.c:367-376 -/
  | f1 (off len : Nat) (l r : Option Nat)
  /-- next: delete left neighbour from (len, off). src/catalog/free_extents.c:378-384 -/
  | f2 (off len : Nat) (l r : Option Nat)
  /-- next: put the right neighbour back into (len, off), retry.
  src/catalog/free_extents.c:386-398 -/
  | f2b (off len : Nat) (r : Option Nat)
  /-- next: delete right neighbour from (off, len). src/catalog/free_extents.c:405-416 -/
  | f3 (off len : Nat) (l r : Option Nat)
  /-- next: delete left neighbour from (off, len). src/catalog/free_extents.c:418-429 -/
  | f4 (off len : Nat) (l r : Option Nat)
  /-- next: insert merged extent into (off, len). src/catalog/free_extents.c:434-459 -/
  | f5 (off len : Nat)
  /-- next: insert merged extent into (len, off). src/catalog/free_extents.c:461-470 -/
  | f6 (off len : Nat)
  /-- `elog(FATAL)` or failed assertion. -/
  | fatal
  deriving Repr, DecidableEq

/-- Shared state: the (len, off) tree, the (off, len) tree, `datafileLength`,
`numFreeBlocks`, and (ghost) the extents currently handed out.
The order inside the trees is not represented: searches below say which entry
the ordered search finds.
Trees: include/catalog/sys_trees.h:127-131; counters: include/btree/page_contents.h:23-76. -/
structure State where
  lo : List Ext
  ol : List Ext
  fileLen : Nat
  numFree : Nat
  used : List Ext
  procs : List PC
  deriving Repr, DecidableEq

/-- `free_tree_len_off_cmp(a, b) < 0` within one data file,
src/catalog/sys_trees.c:1245-1263. -/
def lenOffLt (a b : Ext) : Bool := a.2 < b.2 || (a.2 == b.2 && a.1 < b.1)

/-- First live entry of the (len, off) tree at or after key (len, 0): the search
loop of `get_extent`, src/catalog/free_extents.c:108-176.  The page-by-page walk
is modelled as one atomic search (the page with the entry found is locked). -/
def bestFit (need : Nat) : List Ext → Option Ext
  | [] => none
  | x :: xs =>
    if need ≤ x.2 then
      match bestFit need xs with
      | none => some x
      | some y => if lenOffLt y x then some y else some x
    else bestFit need xs

/-- Entry of the (off, len) tree with the greatest offset satisfying `q`: a fetch
from a backward iterator (`free_tree_off_len_cmp` compares offsets only,
src/catalog/sys_trees.c:1219-1235). -/
def lastBefore (q : Nat → Bool) : List Ext → Option Ext
  | [] => none
  | x :: xs =>
    if q x.1 then
      match lastBefore q xs with
      | none => some x
      | some y => if x.1 < y.1 then some y else some x
    else lastBefore q xs

/-- `o_btree_autonomous_insert` into the (off, len) tree: refused if the key
(offset) is present.  src/btree/modify.c:1651-1695, called at the lines cited at `PC`. -/
def insOL (x : Ext) (t : List Ext) : Option (List Ext) :=
  if t.any (·.1 == x.1) then none else some (x :: t)

/-- `o_btree_autonomous_delete` from the (off, len) tree by key (offset).
src/btree/modify.c:1697-1748, called at the lines cited at `PC`. -/
def delOL (off : Nat) (t : List Ext) : Option (List Ext) :=
  if t.any (·.1 == off) then some (t.eraseP (·.1 == off)) else none

/-- `o_btree_autonomous_insert` into the (len, off) tree (whole tuple is the key).
src/btree/modify.c:1651-1695, called at the lines cited at `PC`. -/
def insLO (x : Ext) (t : List Ext) : Option (List Ext) :=
  if x ∈ t then none else some (x :: t)

/-- Deletion from the (len, off) tree.
src/btree/modify.c:1697-1748, called at the lines cited at `PC`. -/
def delLO (x : Ext) (t : List Ext) : Option (List Ext) :=
  if x ∈ t then some (t.erase x) else none

/-- What a process may be asked to do when idle: allocate `need` blocks, or
release the `k`-th handed-out extent.  src/catalog/free_extents.c:71-266, 282-474. -/
inductive Cmd where
  | get (need : Nat)
  | free (k : Nat)
  | go
  deriving Repr, DecidableEq

/-- Extending the file: `pg_atomic_fetch_add_u64(&metaPage->datafileLength[0], len)`,
src/catalog/free_extents.c:96-102, 180-187. -/
def extend (s : State) (need : Nat) : State :=
  { s with fileLen := s.fileLen + need, used := (s.fileLen, need) :: s.used }

/-- `get_extent` up to and including the removal from the (len, off) tree.
src/catalog/free_extents.c:71-217.  (`use_device` and S3 modes not modelled.) -/
def startGet (s : State) (i need : Nat) : State :=
  if need = 0 then s
  else if s.numFree < need then extend s need
  else match bestFit need s.lo with
    | none => extend s need
    | some x =>
      { s with lo := s.lo.erase x, numFree := s.numFree - need,
               procs := s.procs.set i (.g1 x.1 x.2 need) }

/-- Callers of `free_extent`: add the length to `numFreeBlocks` first
(src/catalog/free_extents.c:605-619; src/tableam/descr.c:645-652). -/
def startFree (s : State) (i k : Nat) : State :=
  match s.used[k]? with
  | none => s
  | some x =>
    { s with used := s.used.eraseIdx k, numFree := s.numFree + x.2,
             procs := s.procs.set i (.f0 x.1 x.2) }

/-- One step of the program of process `i`, src/catalog/free_extents.c:71-474
(line ranges at the constructors of `PC`). -/
def State.step (s : State) (i : Nat) (c : Cmd) : State :=
  let upd (pc : PC) (s : State) : State := { s with procs := s.procs.set i pc }
  match s.procs[i]? with
  | none => s
  | some pc =>
    match pc with
    | .idle =>
      match c with
      | .get need => startGet s i need
      | .free k => startFree s i k
      | .go => s
    | .g1 off len need =>
      if len - need > 0 then
        match insOL (off + need, len - need) s.ol with
        | some t => upd (.g2 off len need) { s with ol := t }
        | none => upd .fatal s
      else upd (.g2 off len need) s
    | .g2 off len need =>
      match delOL off s.ol with
      | some t => upd (.g3 off len need) { s with ol := t }
      | none => upd .fatal s
    | .g3 off len need =>
      if len - need > 0 then
        match insLO (off + need, len - need) s.lo with
        | some t => upd .idle { s with lo := t, used := (off, need) :: s.used }
        | none => upd .fatal s
      else upd .idle { s with used := (off, need) :: s.used }
    | .f0 off len =>
      match lastBefore (· ≤ off + len) s.ol with
      | none => upd (.f1 off len none none) s
      | some x =>
        if x.1 = off + len then upd (.f0b off len x.2) s
        else if x.1 < off then
          upd (.f1 off len (if x.1 + x.2 = off then some x.2 else none) none) s
        else upd .fatal s
    | .f0b off len r =>
      match lastBefore (· < off + len) s.ol with
      | some x => upd (.f1 off len (if x.1 + x.2 = off then some x.2 else none) (some r)) s
      | none => upd (.f1 off len none (some r)) s
    | .f1 off len l r =>
      match r with
      | none => upd (.f2 off len l none) s
      | some k =>
        match delLO (off + len, k) s.lo with
        | some t => upd (.f2 off len l r) { s with lo := t }
        | none => upd (.f0 off len) s
    | .f2 off len l r =>
      match l with
      | none => upd (.f3 off len none r) s
      | some k =>
        match delLO (off - k, k) s.lo with
        | some t => upd (.f3 off len l r) { s with lo := t }
        | none => upd (.f2b off len r) s
    | .f2b off len r =>
      match r with
      | none => upd (.f0 off len) s
      | some k =>
        match insLO (off + len, k) s.lo with
        | some t => upd (.f0 off len) { s with lo := t }
        | none => upd .fatal s
    | .f3 off len l r =>
      match r with
      | none => upd (.f4 off len l none) s
      | some _ =>
        match delOL (off + len) s.ol with
        | some t => upd (.f4 off len l r) { s with ol := t }
        | none => upd .fatal s
    | .f4 off len l r =>
      match l with
      | none => upd (.f5 off (len + r.getD 0)) s
      | some k =>
        match delOL (off - k) s.ol with
        | some t => upd (.f5 (off - k) (k + len + r.getD 0)) { s with ol := t }
        | none => upd .fatal s
    | .f5 off len =>
      match insOL (off, len) s.ol with
      | some t => upd (.f6 off len) { s with ol := t }
      | none => upd .fatal s
    | .f6 off len =>
      match insLO (off, len) s.lo with
      | some t => upd .idle { s with lo := t }
      | none => upd .fatal s
    | .fatal => s

/-- A schedule: which process moves, and what an idle process is asked to do.
Auxiliary of the model, without counterpart in /repo. -/
abbrev Sched := List (Nat × Cmd)

/-- Running a schedule.  Auxiliary of the model, without counterpart in /repo. -/
def State.run (s : State) (σ : Sched) : State := σ.foldl (fun s m => s.step m.1 m.2) s

/-- A new, empty data file and `n` idle processes.
The meta page of a new tree: all counters zero, as in src/btree/build.c:313-320. -/
def init (n : Nat) : State := ⟨[], [], 0, 0, [], List.replicate n .idle⟩

/-! ### Listing and backend-local lists -/

/-- `foreach_free_extent` for one tree entry: `FileExtent.len` has 16 bits, so a
long extent is reported in pieces of `UINT16_MAX` blocks.
src/catalog/free_extents.c:528-539. -/
def pieces (off len : Nat) : List Ext :=
  if 65535 < len then (off, 65535) :: pieces (off + 65535) (len - 65535) else [(off, len)]
termination_by len
decreasing_by omega

/-- `local_free_extents_push`, src/catalog/free_extents.c:653-682 (array growth
not modelled). -/
def localPush (l : List Ext) (x : Ext) : List Ext := l ++ [x]

/-- The loop of `local_free_extents_pop`, src/catalog/free_extents.c:700-722:
first fit; an exact match is overwritten by the last item. `pre` are the items
already passed. -/
def localPopLoop (need : Nat) (pre : List Ext) : List Ext → Option (Ext × List Ext)
  | [] => none
  | x :: xs =>
    if x.2 < need then localPopLoop need (pre ++ [x]) xs
    else if x.2 = need then
      some ((x.1, need),
        match xs.getLast? with
        | none => pre
        | some y => pre ++ y :: xs.dropLast)
    else some ((x.1, need), pre ++ (x.1 + need, x.2 - need) :: xs)

/-- `local_free_extents_pop`, src/catalog/free_extents.c:689-725. -/
def localPop (l : List Ext) (need : Nat) : Option (Ext × List Ext) := localPopLoop need [] l

end Verif.Extents
