/-!
# VACUUM of bridged indexes: model

Indexes of other access methods point to rows of a table through its *bridge index*, by TIDs.  VACUUM
collects the TIDs of the entries of the bridge index that are deleted for everybody, removes them from
the bridged indexes, then from the bridge index.  If memory runs out, it does so in several rounds.  The
code for PostgreSQL 17 and later is modelled, where TIDs are kept in a `TidStore`.
-/

namespace Verif.BridgeVacuum

/-- Block and offset of an `ItemPointerData`; sizes left out. -/
abbrev Tid := Nat × Nat

/-- A leaf tuple of the bridge index, src/tableam/vacuum.c:1130-1140: its TID, and whether it is
deleted by a transaction finished for everybody (:1132-1135). -/
structure Entry where
  tid : Tid
  dead : Bool
deriving DecidableEq, Repr

/-- `TidStore` of PostgreSQL, as used at src/tableam/vacuum.c:409, 776-803: blocks with their offsets. -/
abbrev Store := List (Nat × List Nat)

/-- `TidStoreSetBlockOffsets`, as called at src/tableam/vacuum.c:409: the offsets of a block replace
those set before for this block. -/
def setBlock (s : Store) (b : Nat) (os : List Nat) : Store :=
  s.filter (fun x => decide (x.1 ≠ b)) ++ [(b, os)]

/-- The TIDs of a store, as iterated over at src/tableam/vacuum.c:776-807. -/
def tids (s : Store) : List Tid := s.flatMap fun x => x.2.map fun o => (x.1, o)

/-- The fields of `LVRelState` for the collection, src/tableam/vacuum.c:113-114, 144-146:
`current_block` (`none`: `InvalidBlockNumber`), `current_offsets` with `offsets_count`, `dead_items`,
and `num_items` of `dead_items_info`. -/
structure Vac where
  cur : Option Nat
  offs : List Nat
  store : Store
  num : Nat
deriving DecidableEq, Repr

/-- `finish_dead_items`, src/tableam/vacuum.c:397-417. -/
def finish (v : Vac) : Vac :=
  match v.cur with
  | none => v
  | some b => { v with store := setBlock v.store b v.offs, num := v.num + v.offs.length }

/-- `add_dead_item`, src/tableam/vacuum.c:419-429. -/
def addDead (v : Vac) (t : Tid) : Vac :=
  let v' := if v.cur ≠ some t.1 then { finish v with cur := some t.1, offs := [] } else v
  { v' with offs := v'.offs ++ [t.2] }

/-- `dead_items_reset`, src/tableam/vacuum.c:1551-1570. -/
def reset (v : Vac) : Vac := { v with store := [], num := 0 }

/-- The loop of `lazy_scan_bridge_index` over the leaf tuples, src/tableam/vacuum.c:1106-1175: the
stores of the rounds made because memory ran out, and the state at the end.  Whether it ran out
(:1145) may depend on anything: `full` gets the number of entries left and the store.  Simplified: the
leaves are one list, in the order of TIDs; changes by others meanwhile are left out. -/
def scan (full : Nat → Store → Bool) : List Entry → Vac → List Store × Vac
  | [], v => ([], finish v)
  | e :: es, v =>
    if e.dead then
      let v' := addDead v e.tid
      if full es.length v'.store then
        let r := scan full es (reset v')
        (v'.store :: r.1, r.2)
      else scan full es v'
    else scan full es v

/-- The rounds of one VACUUM: those of the scan, and the last one if something is left,
src/tableam/vacuum.c:1192-1193.  The last one is skipped if so decided (:1011-1066, any decision
`bypass`), which is considered only if there was no round before (:1151). -/
def rounds (full : Nat → Store → Bool) (bypass : Bool) (es : List Entry) : List Store :=
  let r := scan full es ⟨none, [], [], 0⟩
  if 0 < r.2.num then
    if bypass && r.1.isEmpty then [] else r.1 ++ [r.2.store]
  else r.1

/-- What VACUUM does to the data: `vac_bulkdel_one_index` for an index (src/tableam/vacuum.c:603), and
`lazy_vacuum_bridge_index` (:732-972). -/
inductive Ev where
  | index (i : Nat) (s : Store)
  | bridge (s : Store)
deriving Repr

/-- `lazy_vacuum`, src/tableam/vacuum.c:1067-1072, with `lazy_vacuum_all_indexes` (:664-677), for each
round.  Simplified: parallel workers, which vacuum the indexes in any order. -/
def events (nindexes : Nat) (rs : List Store) : List Ev :=
  rs.flatMap fun s => (List.range nindexes).map (fun i => Ev.index i s) ++ [Ev.bridge s]

/-- The bridged indexes, by the TIDs of their entries, and the bridge index; for
src/tableam/vacuum.c:73-148 (`indrels`, `descr->bridge`). -/
structure Db where
  indexes : List (List Tid)
  bridge : List Entry
deriving DecidableEq, Repr

/-- One event.  An index loses the entries whose TIDs are in the store (src/tableam/vacuum.c:603).
The bridge index loses those found by their TIDs (:826-909); the code does not look whether they are
still deleted.  Simplified: the search for the page and in it. -/
def step (db : Db) : Ev → Db
  | .index i s => { db with indexes := db.indexes.modify i fun l => l.filter fun t => decide (t ∉ tids s) }
  | .bridge s => { db with bridge := db.bridge.filter fun e => decide (e.tid ∉ tids s) }

/-- Events one after the other; for `lazy_vacuum`, src/tableam/vacuum.c:987-1079. -/
def run (db : Db) (evs : List Ev) : Db := evs.foldl step db

end Verif.BridgeVacuum
