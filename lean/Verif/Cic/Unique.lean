/-!
# The check that a unique index built concurrently has no duplicates

After the spool is applied, the new index is read once and each tuple compared with the one before.
Only the unique columns of the tuples are here.
-/

namespace Verif.Cic

/-- A value of a column; `none` is NULL. -/
abbrev Val := Option Nat

/-- The loop over the unique columns of two tuples: are all equal, was there a NULL?
src/catalog/indices.c:1004-1026. -/
def cmpLoop : List Val → List Val → Bool × Bool
  | a :: as, b :: bs =>
    if a.isNone || b.isNone then (false, true)
    else if a = b then cmpLoop as bs
    else (false, false)
  | _, _ => (true, false)

/-- Is the build given up for two tuples, one read after the other?  src/catalog/indices.c:1032-1033. -/
def rejects (nullsNotDistinct : Bool) (a b : List Val) : Bool :=
  (cmpLoop a b).1 || ((cmpLoop a b).2 && nullsNotDistinct)

/-- The walk over all tuples; `true` if the index is accepted.  src/catalog/indices.c:989-1048. -/
def walk (nullsNotDistinct : Bool) : List (List Val) → Bool
  | a :: b :: l => !rejects nullsNotDistinct a b && walk nullsNotDistinct (b :: l)
  | _ => true

/-- A leaf page of the index: its place in the data file if it is not in memory, and its tuples. -/
structure Leaf where
  disk : Option Nat
  tuples : List (List Val)

/-- The order in which a sequential scan returns the tuples: the pages in memory in the order of the
keys, then those on disk in the order of their place.  src/btree/scan.c:2098-2130 (pages on
disk are put aside), 797-825 (their order). -/
def scanOrder (leaves : List Leaf) : List (List Val) :=
  (leaves.filter (fun l => l.disk.isNone)).flatMap Leaf.tuples ++
    ((leaves.filter (fun l => l.disk.isSome)).mergeSort (fun a b => a.disk.getD 0 ≤ b.disk.getD 0)).flatMap
      Leaf.tuples

/-- The check of a unique index.  src/catalog/indices.c:975-1052. -/
def checkUnique (nullsNotDistinct : Bool) (leaves : List Leaf) : Bool :=
  walk nullsNotDistinct (scanOrder leaves)

end Verif.Cic
