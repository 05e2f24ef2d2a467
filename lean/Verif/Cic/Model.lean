import Verif.Cic.Spool

/-!
# CREATE INDEX CONCURRENTLY

The index is known to all as being built.  Processes change the table; for the new index they write
entries of the spool.  The builder reads the table, loads the index with what it has read, locks the
table, applies the spool, and adds the keys of all rows once more.

Not modelled: partial indexes and expressions, tables without primary key, NULLs, changes of the
definition of the table, what PostgreSQL does around this, recovery.  All columns have values of one
kind, so that a value can be taken for one of another column.
-/

namespace Verif.Cic

/-- A row: the values of its columns. -/
abbrev Row := List Nat

/-- A key: the values of some columns. -/
abbrev Key := List Nat

/-- The index: the columns of the table which its own columns are, those of the primary key at the end
(`tableAttnums`, counted from 0 here: src/catalog/o_indices.c:537-606), and the columns of the primary
key.  `n` is the number of processes which change the table. -/
structure Ix where
  atts : List Nat
  pk : List Nat
  n : Nat

/-- The values of some columns of a row. -/
def proj (atts : List Nat) (r : Row) : Key := atts.map (fun a => r.getD a 0)

/-- The entry of the index for a row.  `tts_orioledb_make_secondary_tuple` for a row of the table:
src/tuple/slot.c:1072-1136. -/
def Ix.key (ix : Ix) (r : Row) : Key := proj ix.atts r

/-- The primary key of a row. -/
def Ix.pkOf (ix : Ix) (r : Row) : Key := proj ix.pk r

/-- The tuple written to the spool for a deletion.  The row given is the tuple of the index, made by
`orioledb_amdelete` (src/indexam/handler.c:1010-1020), whose columns are those of the index; but
`tts_orioledb_make_secondary_tuple` takes its columns by the numbers of the table
(src/tableam/operations.c:2361; src/tuple/slot.c:1083-1097, 984-1050).  `none` if such a number is beyond
the end of the tuple. -/
def Ix.delKey (ix : Ix) (r : Row) : Option Key := ix.atts.mapM (fun a => (ix.key r)[a]?)

/-- The row with a primary key. -/
def get (ix : Ix) (t : List Row) (p : Key) : Option Row := t.find? (fun r => ix.pkOf r == p)

/-- Give the primary key a row, or none. -/
def put (ix : Ix) (t : List Row) (p : Key) (o : Option Row) : List Row :=
  t.filter (fun r => ix.pkOf r != p) ++ o.toList

/-- What a transaction has to take back for one change: the row before, the place in the undo log, and
the entry of the spool (a second item of the undo stack in the code, pushed after the first).
`cic_spool_track_for_abort`: src/catalog/cic_spool.c:514-552. -/
structure Item where
  p : Key
  old : Option Row
  loc : Nat
  cap : Option (Op × Key)

/-- What a process has still to do for the change it is making or taking back: write the entry of the
spool, or restore the row. -/
inductive Pend where
  | cap (op : Op) (row : Row)
  | back

/-- The state: the table; of each process the undo stack of its transaction, what it has still to do, its
file and its counter (`CICSpoolWriter`: src/catalog/cic_spool.c:50-58); the end of the undo log; the keys
the builder has read; whether something undefined has happened. -/
structure St where
  tab : List Row
  stk : Nat → List Item
  pend : Nat → Option Pend
  file : Nat → List Rec
  seq : Nat → Nat
  pos : Nat
  built : List Key
  undef : Bool

/-- Change one value of a function. -/
def set {α : Type} (f : Nat → α) (x : Nat) (a : α) : Nat → α := fun y => if y = x then a else f y

/-- The beginning: no transaction is in progress, for PostgreSQL has waited for all.
src/indexam/handler.c:396-401; src/tableam/handler.c:1318-1325. -/
def init (tab : List Row) : St :=
  { tab := tab, stk := fun _ => [], pend := fun _ => none, file := fun _ => [], seq := fun _ => 0, pos := 0,
    built := [], undef := false }

/-- Nobody else has changed this row in a transaction which goes on. -/
def free (ix : Ix) (s : St) (b : Nat) (p : Key) : Bool :=
  (List.range ix.n).all (fun b' => b' == b || (s.stk b').all (fun it => it.p != p))

/-- Append an entry.  `cic_spool_append`: src/catalog/cic_spool.c:177-236. -/
def append (s : St) (b pos : Nat) (op : Op) (k : Key) : St :=
  { s with file := set s.file b (s.file b ++ [entry pos (s.seq b) op k]), seq := set s.seq b (s.seq b + 1) }

/-- The change of the primary index, which pushes an item to the undo stack. -/
def modify (ix : Ix) (s : St) (b : Nat) (p : Key) (old new : Option Row) (pd : Option Pend) : St :=
  { s with tab := put ix s.tab p new, stk := set s.stk b (⟨p, old, s.pos, none⟩ :: s.stk b),
           pend := set s.pend b pd, pos := s.pos + 1 }

/-- The row as it was before the change, and the item removed. -/
def restore (ix : Ix) (s : St) (b : Nat) (it : Item) (rest : List Item) : St :=
  { s with tab := put ix s.tab it.p it.old, stk := set s.stk b rest, pend := set s.pend b none }

/-- The entry which takes back another one.  `cic_capture_undo_callback`:
src/catalog/cic_spool.c:609-621. -/
def Op.reverse : Op → Op
  | .ins => .rins
  | .del => .rdel
  | o => o

/-- What can happen: the change of the table by an insertion, a deletion or an update; the part of the
statement for the new index; one step of a rollback; a rollback before the part for the new index is
reached; a commit; the file closed and opened again; the builder reads a row. -/
inductive Ev where
  | ins (b : Nat) (r : Row)
  | del (b : Nat) (p : Key)
  | upd (b : Nat) (r : Row)
  | cap (b : Nat)
  | undo (b : Nat)
  | fail (b : Nat)
  | commit (b : Nat)
  | reopen (b : Nat)
  | read (p : Key)
deriving DecidableEq, Repr

/-- The part of a statement for the new index.  The position is that of the last item on the undo stack
(`get_cur_undo_locations`: src/transam/undo.c:2347-2353), which is the change just made; TOAST values
are left out.  `o_tbl_index_insert`: src/tableam/operations.c:2495-2530; `o_tbl_index_delete`:
2337-2378. -/
def capture (ix : Ix) (s : St) (b : Nat) (op : Op) (row : Row) (it : Item) (rest : List Item) : St :=
  match (if op = .ins then some (ix.key row) else ix.delKey row) with
  | none => { s with pend := set s.pend b none, undef := true }
  | some k =>
    { append s b it.loc op k with
      stk := set s.stk b ({ it with cap := some (op, k) } :: rest), pend := set s.pend b none }

/-- One step of a rollback, from the newest item on: the reverse entry first, then the row.
`cic_capture_undo_callback`: src/catalog/cic_spool.c:566-626. -/
def undo (ix : Ix) (s : St) (b : Nat) : Option St :=
  match s.pend b, s.stk b with
  | none, it :: rest =>
    match it.cap with
    | some (op, k) =>
      some { append s b it.loc op.reverse k with
             stk := set s.stk b ({ it with cap := none } :: rest), pend := set s.pend b (some .back) }
    | none => some (restore ix s b it rest)
  | some .back, it :: rest => some (restore ix s b it rest)
  | _, _ => none

/-- One step.  An update is no business of the spool: `o_update_secondary_index` does nothing if the
entry of the index stays the same, and otherwise modifies the tree of the index, whose root is a
placeholder while it is built (src/tableam/operations.c:2108-2121; src/tableam/descr.c:442-451, 549-556):
this is undefined.  The builder sees rows of transactions in progress: it reads with
`o_in_progress_snapshot` (src/catalog/indices.c:1826; src/btree/iterator.c:772-777). -/
def step (ix : Ix) (s : St) : Ev → Option St
  | .ins b r =>
    if b < ix.n ∧ (s.pend b).isNone ∧ (get ix s.tab (ix.pkOf r)).isNone ∧ free ix s b (ix.pkOf r) then
      some (modify ix s b (ix.pkOf r) none (some r) (some (.cap .ins r)))
    else none
  | .del b p =>
    match get ix s.tab p with
    | none => none
    | some r =>
      if b < ix.n ∧ (s.pend b).isNone ∧ free ix s b p then
        some (modify ix s b p (some r) none (some (.cap .del r)))
      else none
  | .upd b r =>
    match get ix s.tab (ix.pkOf r) with
    | none => none
    | some o =>
      if b < ix.n ∧ (s.pend b).isNone ∧ free ix s b (ix.pkOf r) then
        let s' := modify ix s b (ix.pkOf r) (some o) (some r) none
        some (if ix.key o = ix.key r then s' else { s' with undef := true })
      else none
  | .cap b =>
    match s.pend b, s.stk b with
    | some (.cap op row), it :: rest => some (capture ix s b op row it rest)
    | _, _ => none
  | .undo b => undo ix s b
  | .fail b =>
    match s.pend b, s.stk b with
    | some (.cap _ _), it :: rest => some (restore ix s b it rest)
    | _, _ => none
  | .commit b => if (s.pend b).isNone then some { s with stk := set s.stk b [] } else none
  | .reopen b => some { s with seq := set s.seq b 0 }
  | .read p =>
    match get ix s.tab p with
    | none => some s
    | some r => some { s with built := s.built ++ [ix.key r] }

/-- A run. -/
def run (ix : Ix) (s : St) : List Ev → Option St
  | [] => some s
  | e :: es =>
    match step ix s e with
    | none => none
    | some s' => run ix s' es

/-- No transaction is in progress: the builder has the table locked.
src/catalog/indices.c:866-874. -/
def quiet (ix : Ix) (s : St) : Prop := ∀ b, b < ix.n → s.pend b = none ∧ s.stk b = []

/-- The finished index: loaded with the keys the builder has read, then the spool applied (the files in
the order `dir` of the directory), then the keys of all rows inserted.
`o_define_index_concurrent_finish`: src/catalog/indices.c:863-882, 895-952. -/
def finish (ix : Ix) (s : St) (dir : List Nat) : Option (Key → Bool) :=
  match drain (fun k => s.built.contains k) (readFiles (dir.map s.file)) with
  | none => none
  | some t => some (fun k => t k || (s.tab.map ix.key).contains k)

end Verif.Cic
