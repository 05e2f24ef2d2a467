/-!
# Key bitmaps

Model of src/tableam/key_bitmap.c.

The two radix trees (`okbm_*`, `okbmf_*`, include/lib/o_radixtree.h) are modelled
by lists of key-value pairs in ascending key order; `iterate_next` runs through the
list.  Values of type `uint64` are natural numbers, operations on them are reduced
modulo 2^64 where they could overflow.
-/

namespace Verif.KeyBitmap

/-! ## Ordered maps -/

/-- `okbm_find` / `okbmf_find` (include/lib/o_radixtree.h, `RT_FIND`).
Simplification: the tree is an ordered association list.  include/lib/o_radixtree.h:1176-1211. -/
def find {K V : Type} [DecidableEq K] (k : K) : List (K × V) → Option V
  | [] => none
  | (k', v) :: t => if k = k' then some v else find k t

/-- `okbm_set` / `okbmf_set` (include/lib/o_radixtree.h, `RT_SET`): a new entry at its
place in the order, or a new value for an existing key; also the effect of writing
through the pointer `okbm_find` returned (key_bitmap.c:264, 304, 374).
Simplification: the tree is an ordered association list. -/
def set {K V : Type} [DecidableEq K] (lt : K → K → Bool) (k : K) (v : V) :
    List (K × V) → List (K × V)
  | [] => [(k, v)]
  | (k', v') :: t =>
    if k = k' then (k, v) :: t
    else if lt k k' then (k, v) :: (k', v') :: t
    else (k', v') :: set lt k v t

/-- `okbm_delete` / `okbmf_delete` (include/lib/o_radixtree.h, `RT_DELETE`).
Simplification: the tree is an ordered association list.  include/lib/o_radixtree.h:2761-2800. -/
def delete {K V : Type} [DecidableEq K] (k : K) (t : List (K × V)) : List (K × V) :=
  t.filter (fun e => decide (e.1 ≠ k))

/-! ## 64-bit mode -/

/-- `OKBM_BITMAP_BYTES`, key_bitmap.c:32-35: `OKBM_CHUNK_VALUES / 8` with
`OKBM_CHUNK_VALUES = 1 << 10`. -/
def BYTES : Nat := 128

/-- `OKBM_LOW_MASK`, key_bitmap.c:34. -/
def LOW_MASK : Nat := 1023

/-- `OKeyBitmapChunk`, key_bitmap.c:37-40: 128 bytes. -/
abbrev Chunk := List Nat

/-- A chunk cleared by `memset`, key_bitmap.c:259, 296. -/
def emptyChunk : Chunk := List.replicate BYTES 0

/-- `bitmap[i] |= m`, key_bitmap.c:260, 264, 297, 304. -/
def orByte (c : Chunk) (i m : Nat) : Chunk := c.set i (c.getD i 0 ||| m)

/-- `OKeyBitmap` in 64-bit mode, key_bitmap.c:70-93: the tree, the array of chunk keys
and the flag that it is current.  `nchunks` is the length of the array. -/
structure Bm where
  tree : List (Nat × Chunk)
  chunks : List Nat
  finalized : Bool
deriving DecidableEq, Repr

/-- `o_keybitmap_create`, key_bitmap.c:127-154. -/
def create : Bm := ⟨[], [], false⟩

/-- `o_keybitmap_insert`, key_bitmap.c:248-267. -/
def insert (bm : Bm) (value : Nat) : Bm :=
  let chunk := value >>> 10
  let offset := value &&& LOW_MASK
  match find chunk bm.tree with
  | none =>
    { bm with
      tree := set Nat.blt chunk (orByte emptyChunk (offset >>> 3) (1 <<< (offset &&& 7))) bm.tree,
      finalized := false }
  | some entry =>
    { bm with
      tree := set Nat.blt chunk (orByte entry (offset >>> 3) (1 <<< (offset &&& 7))) bm.tree,
      finalized := false }

/-- `o_keybitmap_test`, key_bitmap.c:269-280. -/
def test (bm : Bm) (value : Nat) : Bool :=
  let chunk := value >>> 10
  let offset := value &&& LOW_MASK
  match find chunk bm.tree with
  | none => false
  | some entry => (entry.getD (offset >>> 3) 0 &&& (1 <<< (offset &&& 7))) != 0

/-- `o_keybitmap_emit`, key_bitmap.c:282-307. -/
def emit (bm : Bm) (value : Nat) : Bm × Bool :=
  let chunk := value >>> 10
  let offset := value &&& LOW_MASK
  let byte := offset >>> 3
  let mask := 1 <<< (offset &&& 7)
  match find chunk bm.tree with
  | none =>
    ({ bm with
       tree := set Nat.blt chunk (orByte emptyChunk byte mask) bm.tree, finalized := false }, true)
  | some entry =>
    if (entry.getD byte 0 &&& mask) != 0 then (bm, false)
    else ({ bm with
            tree := set Nat.blt chunk (orByte entry byte mask) bm.tree, finalized := false }, true)

/-- `o_keybitmap_is_empty`, key_bitmap.c:309-331, 64-bit branch: the first call of the
iterator returns nothing. -/
def isEmpty (bm : Bm) : Bool := bm.tree.isEmpty

/-- One round of the loop of `o_keybitmap_union`, key_bitmap.c:363-376. -/
def unionOne (t : List (Nat × Chunk)) (e : Nat × Chunk) : List (Nat × Chunk) :=
  match find e.1 t with
  | none => set Nat.blt e.1 e.2 t
  | some aentry => set Nat.blt e.1 (List.zipWith (· ||| ·) aentry e.2) t

/-- `o_keybitmap_union`, key_bitmap.c:333-379, 64-bit branch. -/
def union (a b : Bm) : Bm :=
  { a with tree := b.tree.foldl unionOne a.tree, finalized := false }

/-- The new value of a chunk of `a` in the loop of `o_keybitmap_intersect`,
key_bitmap.c:438-449. -/
def andChunk (b : List (Nat × Chunk)) (e : Nat × Chunk) : Chunk :=
  match find e.1 b with
  | none => e.2
  | some bentry => List.zipWith (· &&& ·) e.2 bentry

/-- Is the chunk put on the list `toDelete`?  key_bitmap.c:439-463. -/
def emptied (b : List (Nat × Chunk)) (e : Nat × Chunk) : Bool :=
  match find e.1 b with
  | none => true
  | some bentry => (List.zipWith (· &&& ·) e.2 bentry).all (· == 0)

/-- `o_keybitmap_intersect`, key_bitmap.c:381-473, 64-bit branch: the chunks are
changed in place during the iteration and the emptied ones removed after it. -/
def intersect (a b : Bm) : Bm :=
  let toDelete := (a.tree.filter (emptied b.tree)).map (·.1)
  let tree := a.tree.map (fun e => (e.1, andChunk b.tree e))
  { a with tree := toDelete.foldl (fun t k => delete k t) tree, finalized := false }

/-- `okbm_finalize`, key_bitmap.c:479-534, 64-bit branch.  Simplification: the growth
of the array (and the error when it would exceed the allocation limit) is left out. -/
def finalize (bm : Bm) : Bm :=
  if bm.finalized then bm else { bm with chunks := bm.tree.map (·.1), finalized := true }

/-- The binary search of `okbm_lower_bound` and `okbmf_lower_bound`,
key_bitmap.c:537-553, 656-673; `less` is the comparison of an element with the target.
`none` is an access outside the array; the first argument bounds the number of
rounds. -/
def lowerBound {K : Type} (l : List K) (less : K → Bool) : Nat → Nat → Nat → Option Nat
  | 0, lo, _ => some lo
  | n + 1, lo, hi =>
    if lo < hi then
      let mid := lo + (hi - lo) / 2
      match l[mid]? with
      | none => none
      | some c => if less c then lowerBound l less n (mid + 1) hi else lowerBound l less n lo mid
    else some lo

/-- Truncation to `uint8`: the assignments at key_bitmap.c:105, 588, 599. -/
def u8 (n : Nat) : Nat := n % 256

/-- The body of the loop of `o_keybitmap_range_is_valid` for one chunk,
key_bitmap.c:585-616. -/
def chunkInRange (entry : Chunk) (chunk chunkLow chunkHigh low high : Nat) : Bool :=
  let iStart := if chunk = chunkLow then (low &&& LOW_MASK) >>> 3 else 0
  let startMask := if chunk = chunkLow then u8 (255 <<< (low &&& 7)) else 255
  let iEnd := if chunk = chunkHigh then ((high - 1) &&& LOW_MASK) >>> 3 else BYTES - 1
  let endMask := if chunk = chunkHigh then u8 (255 >>> (7 - ((high - 1) &&& 7))) else 255
  (List.range' iStart (iEnd + 1 - iStart)).any fun i =>
    let mask := if i = iStart then startMask else 255
    let mask := if i = iEnd then mask &&& endMask else mask
    (entry.getD i 0 &&& mask) != 0

/-- The loop of `o_keybitmap_range_is_valid` over the array, key_bitmap.c:570-619.
`none` is the use of a null pointer: a chunk key that is not in the tree. -/
def rangeLoop (t : List (Nat × Chunk)) (chunkLow chunkHigh low high : Nat) :
    List Nat → Option Bool
  | [] => some false
  | chunk :: rest =>
    if chunk > chunkHigh then some false
    else
      match find chunk t with
      | none => none
      | some entry =>
        if chunkInRange entry chunk chunkLow chunkHigh low high then some true
        else rangeLoop t chunkLow chunkHigh low high rest

/-- `o_keybitmap_range_is_valid`, key_bitmap.c:555-620. -/
def rangeIsValid (bm : Bm) (low high : Nat) : Bm × Option Bool :=
  if high ≤ low then (bm, some false)
  else
    let bm := finalize bm
    let chunkLow := low >>> 10
    let chunkHigh := (high - 1) >>> 10
    (bm, (lowerBound bm.chunks (fun c => Nat.blt c chunkLow) bm.chunks.length 0
        bm.chunks.length).bind
      (fun idx => rangeLoop bm.tree chunkLow chunkHigh low high (bm.chunks.drop idx)))

/-- The loop `while (!(mask & 1))` of `find_next_offset`, key_bitmap.c:114-118; a
`uint8` has at most eight rounds. -/
def lowBit : Nat → Nat → Nat → Nat
  | 0, _, result => result
  | n + 1, mask, result => if mask &&& 1 = 0 then lowBit n (mask >>> 1) (result + 1) else result

/-- The outer loop of `find_next_offset`, key_bitmap.c:106-123; the first argument is
the number of bytes left. -/
def findNextLoop (bitmap : Chunk) : Nat → Nat → Nat → Option Nat
  | 0, _, _ => none
  | n + 1, i, mask =>
    let mask := mask &&& bitmap.getD i 0
    if mask ≠ 0 then some (lowBit 8 mask (i <<< 3)) else findNextLoop bitmap n (i + 1) 255

/-- `find_next_offset`, key_bitmap.c:98-125; `none` is -1. -/
def findNextOffset (bitmap : Chunk) (minOffset : Nat) : Option Nat :=
  findNextLoop bitmap (BYTES - minOffset >>> 3) (minOffset >>> 3) (u8 (255 <<< (minOffset &&& 7)))

/-- The loop of `o_keybitmap_get_next` over the array, key_bitmap.c:631-650. -/
def nextLoop (t : List (Nat × Chunk)) (chunkPrev offPrev : Nat) : List Nat → Option (Option Nat)
  | [] => some none
  | chunk :: rest =>
    match find chunk t with
    | none => none
    | some entry =>
      match findNextOffset entry (if chunk = chunkPrev then offPrev else 0) with
      | some nextOff => some (some (((chunk <<< 10) % 18446744073709551616 + nextOff)
          % 18446744073709551616))
      | none => nextLoop t chunkPrev offPrev rest

/-- `o_keybitmap_get_next`, key_bitmap.c:622-651; the inner option is `*found`, the
outer one the use of a null pointer. -/
def getNext (bm : Bm) (prev : Nat) : Bm × Option (Option Nat) :=
  let chunkPrev := prev >>> 10
  let offPrev := prev &&& LOW_MASK
  let bm := finalize bm
  (bm, (lowerBound bm.chunks (fun c => Nat.blt c chunkPrev) bm.chunks.length 0
      bm.chunks.length).bind
    (fun idx => nextLoop bm.tree chunkPrev offPrev (bm.chunks.drop idx)))

/-! ## Fixed-key mode -/

/-- `memcmp(a, b, n) < 0` for two strings of the same length (C standard; used at
key_bitmap.c:666, 681, 691). -/
def memLt : List Nat → List Nat → Bool
  | a :: s, b :: t => if a < b then true else if b < a then false else memLt s t
  | _, _ => false

/-- `OKeyBitmap` in fixed-key mode, key_bitmap.c:70-93. -/
structure Fm where
  tree : List (List Nat × Unit)
  fkeys : List (List Nat)
  finalized : Bool
deriving DecidableEq, Repr

/-- `o_keybitmap_create_fixed`, key_bitmap.c:156-176. -/
def createF : Fm := ⟨[], [], false⟩

/-- `o_keybitmap_insert_key`, key_bitmap.c:204-217. -/
def insertF (bm : Fm) (key : List Nat) : Fm :=
  { bm with
    tree := if find key bm.tree = none then set memLt key () bm.tree else bm.tree,
    finalized := false }

/-- `o_keybitmap_test_key`, key_bitmap.c:219-226. -/
def testF (bm : Fm) (key : List Nat) : Bool := (find key bm.tree).isSome

/-- `o_keybitmap_emit_key`, key_bitmap.c:234-246. -/
def emitF (bm : Fm) (key : List Nat) : Fm × Bool :=
  if find key bm.tree = none then
    ({ bm with tree := set memLt key () bm.tree, finalized := false }, true)
  else (bm, false)

/-- `o_keybitmap_is_empty`, key_bitmap.c:309-331, fixed branch. -/
def isEmptyF (bm : Fm) : Bool := bm.tree.isEmpty

/-- `o_keybitmap_union`, key_bitmap.c:342-359. -/
def unionF (a b : Fm) : Fm :=
  { a with
    tree := b.tree.foldl
      (fun t e => if find e.1 t = none then set memLt e.1 () t else t) a.tree,
    finalized := false }

/-- `o_keybitmap_intersect`, key_bitmap.c:394-426. -/
def intersectF (a b : Fm) : Fm :=
  let fdel := (a.tree.filter (fun e => decide (find e.1 b.tree = none))).map (·.1)
  { a with tree := fdel.foldl (fun t k => delete k t) a.tree, finalized := false }

/-- `okbm_finalize`, key_bitmap.c:490-514. -/
def finalizeF (bm : Fm) : Fm :=
  if bm.finalized then bm else { bm with fkeys := bm.tree.map (·.1), finalized := true }

/-- `o_keybitmap_range_is_valid_key`, key_bitmap.c:675-693. -/
def rangeIsValidF (bm : Fm) (low high : List Nat) : Fm × Option Bool :=
  if memLt low high then
    let bm := finalizeF bm
    (bm, (lowerBound bm.fkeys (fun c => memLt c low) bm.fkeys.length 0 bm.fkeys.length).bind
      (fun idx =>
        if idx ≥ bm.fkeys.length then some false
        else (bm.fkeys[idx]?).map (fun k => memLt k high)))
  else (bm, some false)

/-- `o_keybitmap_get_next_key`, key_bitmap.c:695-709. -/
def getNextF (bm : Fm) (prev : List Nat) : Fm × Option (Option (List Nat)) :=
  let bm := finalizeF bm
  (bm, (lowerBound bm.fkeys (fun c => memLt c prev) bm.fkeys.length 0 bm.fkeys.length).bind
    (fun idx =>
      if idx ≥ bm.fkeys.length then some none
      else (bm.fkeys[idx]?).map some))

end Verif.KeyBitmap
