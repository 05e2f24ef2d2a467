/-!
# The check of the extents of a data file: model

`orioledb_tbl_check` collects the extents of the pages of a tree (*busy*) and the free extents of its
data file, and checks that they cover the file without holes and without overlaps.
-/

namespace Verif.CheckExtents

/-- `FileExtent`, include/orioledb.h:349-353; the sizes of the fields (16 and 48 bits) are left out:
a file does not reach 2^48 blocks. -/
structure Ext where
  off : Nat
  len : Nat
deriving DecidableEq, Repr

/-- `file_extent_cmp`, src/btree/check.c:536-547. -/
def extCmp (a b : Ext) : Int :=
  if a.off ≠ b.off then (if b.off < a.off then 1 else -1)
  else if a.len ≠ b.len then (if b.len < a.len then 1 else -1)
  else 0

/-- One extent at its place; for `qsort` below. -/
def insertExt (e : Ext) : List Ext → List Ext
  | [] => [e]
  | x :: t => if extCmp x e < 0 then x :: insertExt e t else e :: x :: t

/-- `qsort` with `file_extent_cmp`, src/btree/check.c:474-475. -/
def sortExts (l : List Ext) : List Ext := l.foldr insertExt []

/-- The loop of `check_extents`, src/btree/check.c:481-528, from `next_off` on, for the busy and the
free extents left.  Simplified: after the first finding the code only looks for others to report, here
the result is given at once. -/
def walk (next : Nat) : List Ext → List Ext → Bool
  | [], [] => true
  | b :: bs, [] => if b.off < next then false else decide (next = b.off) && walk (b.off + b.len) bs []
  | [], f :: fs => if f.off < next then false else decide (next = f.off) && walk (f.off + f.len) [] fs
  | b :: bs, f :: fs =>
    if b.off < next then false
    else if f.off < next then false
    else if 0 < extCmp f b then decide (next = b.off) && walk (b.off + b.len) bs (f :: fs)
    else decide (next = f.off) && walk (f.off + f.len) (b :: bs) fs
termination_by bs fs => bs.length + fs.length

/-- `check_extents`, src/btree/check.c:465-531. -/
def checkExtents (busy free : List Ext) : Bool := walk 0 (sortExts busy) (sortExts free)

/-- `add_extent`, src/btree/check.c:615-634: `blocksCount` of an array built by adding the extents one
by one.  Simplified: the growth of the array. -/
def blocksCount (l : List Ext) : Nat := l.foldl (fun c e => c + e.len) 0

/-- The part of `check_btree` on the blocks of the data file, src/btree/check.c:157-176.  The check
ends at once if the extents are wrong; else their blocks are compared with the length of the file. -/
def checkFile (dataFileLen : Nat) (busy free : List Ext) : Bool :=
  if checkExtents busy free = false then false
  else if blocksCount busy + blocksCount free < dataFileLen then false
  else if dataFileLen < blocksCount busy + blocksCount free then false
  else true

/-- `is_sorted_by_off`, src/btree/check.c:552-577: each extent with the one before. -/
def isSortedByOff : List Ext → Bool
  | a :: b :: t => decide (a.off ≤ b.off) && isSortedByOff (b :: t)
  | _ => true

/-- `is_sorted_by_len_off`, src/btree/check.c:582-610: each extent with the one before. -/
def isSortedByLenOff : List Ext → Bool
  | a :: b :: t =>
    (if a.len ≠ b.len then decide (b.len < a.len) else decide (a.off ≤ b.off)) &&
      isSortedByLenOff (b :: t)
  | _ => true

end Verif.CheckExtents
