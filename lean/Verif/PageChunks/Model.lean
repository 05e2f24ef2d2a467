/-!
# Bytes of B-tree pages: model

How items and the keys between chunks lie in the memory of a page, and how the functions of
src/btree/page_chunks.c move them: insertion, replacement and deletion of an item, splitting a chunk,
merging two chunks, and the reorganization of a page.

The unit of memory is two bytes (`LocationIndex`): all sizes and locations are in these units,
but for the contents of item arrays and chunk descriptors, which are as in the source.  So
`MAXALIGN` rounds up to a multiple of 4, `SHORT_GET_LOCATION` multiplies by 2 and
`ORIOLEDB_BLCKSZ` is 4096.

Undefined behaviour (access outside the page, a negative length, an overflow of a temporary array)
sets `bad`.
-/

namespace Verif.PageChunks

/-- `ORIOLEDB_BLCKSZ`, include/orioledb.h:122: 8192 bytes. -/
def blck : Nat := 4096

/-- `MAXALIGN` of a size in units, as in src/btree/page_chunks.c:487. -/
def al (n : Nat) : Nat := (n + 3) / 4 * 4

/-- `offsetof(BTreePageHeader, chunkDesc)`, include/btree/page_contents.h:124-154: 56 bytes. -/
def descOff : Nat := 28

/-- `MAXALIGN(offsetof(BTreePageHeader, chunkDesc) + sizeof(BTreePageChunkDesc) * n)`, e.g.
src/btree/page_chunks.c:731-732. -/
def hdrLen (n : Nat) : Nat := al (descOff + 2 * n)

/-- `BTREE_PAGE_HIKEYS_END`, include/btree/page_contents.h:168: 256 and 512 bytes. -/
def hikeysLimit (leaf : Bool) : Nat := if leaf then 128 else 256

/-- `BTREE_PAGE_MAX_CHUNK_ITEMS`, include/btree/page_state.h:42-43: 8192 / 10. -/
def maxChunkItems : Nat := 819

/-- A page: its memory, and the fields of `BTreePageHeader` (include/btree/page_contents.h:124-154)
used here, which are below `descOff` and not touched by moves of memory. -/
@[ext] structure Pg where
  mem : Nat → Nat
  leaf : Bool
  rightmost : Bool
  hikeysFixed : Bool
  chunksCount : Nat
  itemsCount : Nat
  hikeysEnd : Nat
  dataSize : Nat
  bad : Bool

/-! ## Memory -/

/-- An assignment to a unit of memory, as in src/btree/page_chunks.c:532. -/
def Pg.put (s : Pg) (a v : Nat) : Pg :=
  { s with
    mem := fun x => if x = a then v else s.mem x
    bad := s.bad || decide (a < descOff ∨ blck ≤ a) }

/-- `memmove(dst, src, end - src)` within the page, as in src/btree/page_chunks.c:512. -/
def Pg.move (s : Pg) (dst src e : Nat) : Pg :=
  { s with
    mem := fun x => if dst ≤ x ∧ x < dst + (e - src) then s.mem (src + (x - dst)) else s.mem x
    bad := s.bad || decide (e < src ∨ src < descOff ∨ blck < e ∨ dst < descOff ∨
      blck < dst + (e - src)) }

/-- `memcpy` from outside of the page, as in src/btree/page_chunks.c:1144-1146. -/
def Pg.copyIn (s : Pg) (dst : Nat) (l : List Nat) : Pg :=
  { s with
    mem := fun x => if dst ≤ x ∧ x < dst + l.length then l.getD (x - dst) 0 else s.mem x
    bad := s.bad || decide (dst < descOff ∨ blck < dst + l.length) }

/-- The contents of memory, e.g. of a tuple. -/
def Pg.read (s : Pg) (a n : Nat) : List Nat := (List.range n).map fun i => s.mem (a + i)

/-- A `for` loop with the index going up from `i`, `n` times (e.g. src/btree/page_chunks.c:515). -/
def loopUp (f : Pg → Nat → Pg) : Nat → Nat → Pg → Pg
  | 0, _, s => s
  | n + 1, i, s => loopUp f n (i + 1) (f s i)

/-- A `for` loop with the index going down from `i`, `n` times (e.g.
src/btree/page_chunks.c:536). -/
def loopDown (f : Pg → Nat → Pg) : Nat → Nat → Pg → Pg
  | 0, _, s => s
  | n + 1, i, s => loopDown f n (i - 1) (f s i)

/-! ## Chunk descriptors -/

/-- `BTreePageChunkDesc`, include/btree/page_contents.h:84-91. -/
structure Desc where
  loc : Nat
  off : Nat
  hloc : Nat
  fixed : Bool
  flags : Nat
deriving DecidableEq, Repr

/-- The lower half of the bit fields (the lowest bits first, as compilers do on little-endian
machines), include/btree/page_contents.h:84-91. -/
def Desc.lo (d : Desc) : Nat := d.loc % 4096 + 4096 * (d.off % 16)

/-- The upper half, include/btree/page_contents.h:84-91. -/
def Desc.hi (d : Desc) : Nat :=
  d.off % 1024 / 16 + 64 * (d.hloc % 128) + 8192 * (if d.fixed then 1 else 0) + 16384 * (d.flags % 4)

/-- Reading the bit fields, include/btree/page_contents.h:84-91. -/
def Desc.of (lo hi : Nat) : Desc :=
  ⟨lo % 4096, lo / 4096 + 16 * (hi % 64), hi / 64 % 128, decide (hi / 8192 % 2 = 1), hi / 16384⟩

/-- `header->chunkDesc[i]`, include/btree/page_contents.h:153. -/
def Pg.desc (s : Pg) (i : Nat) : Desc := .of (s.mem (descOff + 2 * i)) (s.mem (descOff + 2 * i + 1))

/-- Assignment to `header->chunkDesc[i]`, e.g. src/btree/page_chunks.c:515-519; values are cut to the
width of the fields. -/
def Pg.setDesc (s : Pg) (i : Nat) (d : Desc) : Pg :=
  (s.put (descOff + 2 * i) d.lo).put (descOff + 2 * i + 1) d.hi

/-- `shortLocation` after `+= LOCATION_GET_SHORT(up - down)`, src/btree/page_chunks.c:517 and 836,
include/btree/page_contents.h:93-98. -/
def shiftLoc (loc up down : Nat) : Nat := (loc + up / 2 + 4096 - down / 2) % 4096

/-- `hikeyShortLocation` after `+= LOCATION_GET_SHORT(up - down)`, src/btree/page_chunks.c:973 and
760. -/
def shiftH (h up down : Nat) : Nat := (h + up / 2 + 128 - down / 2) % 128

/-! ## Items -/

/-- `ITEM_GET_OFFSET`, include/btree/page_contents.h:173. -/
def itemOff (w : Nat) : Nat := w % 16384 / 2

/-- `ITEM_GET_FLAGS`, include/btree/page_contents.h:174. -/
def itemFlags (w : Nat) : Nat := w / 16384

/-- `ITEM_SET_FLAGS`, include/btree/page_contents.h:175. -/
def itemSet (w : Nat) (f : Bool) : Nat :=
  w % 16384 + w / 32768 * 32768 + if f then 16384 else 0

/-- An entry of an array of items after `+= up - down` (bytes), src/btree/page_chunks.c:532 and
645. -/
def shiftW (w up down : Nat) : Nat := (w + 2 * up + 65536 - 2 * down) % 65536

/-- `BTreePageItemLocator`, include/btree/page_contents.h:114-121. -/
structure Loc where
  chunk : Nat
  item : Nat
  count : Nat
  size : Nat
  addr : Nat
deriving DecidableEq, Repr

/-- `page_chunk_fill_locator`, src/btree/page_chunks.c:364-387. -/
def Pg.fill (s : Pg) (c : Nat) : Loc :=
  if c + 1 < s.chunksCount then
    ⟨c, 0, (s.desc (c + 1)).off - (s.desc c).off, 2 * (s.desc (c + 1)).loc - 2 * (s.desc c).loc,
      2 * (s.desc c).loc⟩
  else
    ⟨c, 0, s.itemsCount - (s.desc c).off, s.dataSize - 2 * (s.desc c).loc, 2 * (s.desc c).loc⟩

/-- `BTREE_PAGE_LOCATOR_GET_ITEM`, include/btree/page_contents.h:195-197. -/
def Pg.item (s : Pg) (l : Loc) : Nat := l.addr + itemOff (s.mem (l.addr + l.item))

/-- `page_locator_get_item_size`, src/btree/page_chunks.c:562-589. -/
def Pg.itemSize (s : Pg) (l : Loc) : Nat :=
  if l.item + 1 < l.count then
    itemOff (s.mem (l.addr + l.item + 1)) - itemOff (s.mem (l.addr + l.item))
  else
    (if l.chunk + 1 < s.chunksCount then 2 * (s.desc (l.chunk + 1)).loc else s.dataSize) -
      s.item l

/-- `page_locator_insert_item`, src/btree/page_chunks.c:471-543. -/
def Pg.insertItem (s : Pg) (l : Loc) (size : Nat) : Pg :=
  let itemsShift := al (l.count + 1) - al l.count
  let dataShift := itemsShift + size
  let first := l.addr + al l.count
  let itemPtr := if l.item < l.count then s.item l else l.addr + l.size
  let s := s.move (itemPtr + dataShift) itemPtr s.dataSize
  let s := loopUp (fun s i => s.setDesc i { s.desc i with
      loc := shiftLoc (s.desc i).loc dataShift 0
      off := (s.desc i).off + 1 }) (s.chunksCount - (l.chunk + 1)) (l.chunk + 1) s
  let s := { s with itemsCount := s.itemsCount + 1, dataSize := s.dataSize + dataShift }
  let s :=
    if itemsShift ≠ 0 then
      loopUp (fun s i => s.put (l.addr + i) (shiftW (s.mem (l.addr + i)) itemsShift 0)) l.item 0
        (s.move (first + itemsShift) first itemPtr)
    else s
  let s := loopDown (fun s i => s.put (l.addr + i) (shiftW (s.mem (l.addr + (i - 1))) dataShift 0))
    (l.count - l.item) l.count s
  s.put (l.addr + l.item) (2 * (itemPtr - l.addr + itemsShift) % 65536)

/-- Writing a tuple with its header and flags to an item, src/btree/insert.c:1500-1505 (also
1068-1072): `memcpy` and `BTREE_PAGE_SET_ITEM_FLAGS`. The bytes up to the next multiple of 8
are taken as part of the tuple. -/
def Pg.writeItem (s : Pg) (l : Loc) (words : List Nat) (f : Bool) : Pg :=
  let s := s.copyIn (s.item l) words
  s.put (l.addr + l.item) (itemSet (s.mem (l.addr + l.item)) f)

/-- Clearing `chunkKeysFixed`, src/btree/insert.c:1507-1508, 1074-1075. -/
def Pg.clearFixed (s : Pg) (l : Loc) (f : Bool) : Pg :=
  if f then s else s.setDesc l.chunk { s.desc l.chunk with fixed := false }

/-- `page_locator_resize_item`, src/btree/page_chunks.c:594-649. -/
def Pg.resizeItem (s : Pg) (l : Loc) (newsize : Nat) : Pg :=
  let old := s.itemSize l
  if newsize = old then s
  else
    let next := if l.item + 1 < l.count then s.item { l with item := l.item + 1 } else l.addr + l.size
    let s := { s with bad := s.bad || decide (s.dataSize < next ∨ blck < s.dataSize + newsize - old) }
    let s := s.move (next + newsize - old) next s.dataSize
    let s := loopUp (fun s i => s.setDesc i { s.desc i with
        loc := shiftLoc (s.desc i).loc newsize old }) (s.chunksCount - (l.chunk + 1)) (l.chunk + 1) s
    let s := { s with dataSize := s.dataSize + newsize - old }
    loopUp (fun s i => s.put (l.addr + i) (shiftW (s.mem (l.addr + i)) newsize old))
      (l.count - (l.item + 1)) (l.item + 1) s

/-! ## Chunks -/

/-- `page_merge_chunks`, src/btree/page_chunks.c:654-779. -/
def Pg.mergeChunks (s : Pg) (c : Nat) : Pg :=
  let l1 := s.fill c
  let l2 := s.fill (c + 1)
  let data1 := l1.addr + al l1.count
  let end1 := l1.addr + l1.size
  let data2 := l2.addr + al l2.count
  let shift1 := al (l1.count + l2.count) - al l1.count
  let shift2 := al l1.count + al l2.count - al (l1.count + l2.count)
  let tmp := (s.read l2.addr l2.count).map fun w =>
    shiftW w (al (l1.count + l2.count) + (end1 - data1)) (al l2.count)
  let s := { s with bad := s.bad || decide (maxChunkItems < l2.count) }
  let s :=
    if shift1 ≠ 0 then
      (loopUp (fun s i => s.put (l1.addr + i) (shiftW (s.mem (l1.addr + i)) shift1 0)) l1.count 0
        s).move (data1 + shift1) data1 end1
    else s
  let s :=
    if shift2 ≠ 0 then
      { s.move (data2 - shift2) data2 s.dataSize with dataSize := s.dataSize - shift2 }
    else s
  let s := s.copyIn (l1.addr + l1.count) tmp
  let hs := hdrLen s.chunksCount - hdrLen (s.chunksCount - 1)
  let h0 := 2 * (s.desc 0).hloc
  let hc := 2 * (s.desc c).hloc
  let hn := 2 * (s.desc (c + 1)).hloc
  let hs2 := hs + hn - hc
  let s := s.setDesc c { s.desc c with
    flags := (s.desc (c + 1)).flags
    fixed := (s.desc c).fixed && (s.desc (c + 1)).fixed }
  let s := loopUp (fun s i => s.setDesc (i - 1) { s.desc i with
      hloc := shiftH (s.desc i).hloc 0 hs2
      loc := shiftLoc (s.desc i).loc 0 shift2 }) (s.chunksCount - (c + 2)) (c + 2) s
  let s :=
    if hs ≠ 0 then
      (loopUp (fun s i => s.setDesc i { s.desc i with hloc := shiftH (s.desc i).hloc 0 hs })
        (c + 1) 0 s).move (h0 - hs) h0 hc
    else s
  let s := s.move (hc - hs) hn s.hikeysEnd
  let s := { s with hikeysEnd := s.hikeysEnd - hs2, chunksCount := s.chunksCount - 1 }
  { s with hikeysFixed := (List.range s.chunksCount).all fun i => decide ((s.desc i).flags % 2 = 1) }

/-- `page_locator_delete_item`, src/btree/page_chunks.c:784-860. -/
def Pg.deleteItem (s : Pg) (l : Loc) : Pg :=
  let size := s.itemSize l
  let itemsShift := al l.count - al (l.count - 1)
  let dataShift := itemsShift + size
  let first := l.addr + al l.count
  let itemPtr := s.item l
  let s := loopUp (fun s i => s.put (l.addr + i) (shiftW (s.mem (l.addr + (i + 1))) 0 dataShift))
    (l.count - 1 - l.item) l.item s
  let s :=
    if itemsShift ≠ 0 then
      loopUp (fun s i => s.put (l.addr + i) (shiftW (s.mem (l.addr + i)) 0 itemsShift)) l.item 0
        (s.move (first - itemsShift) first itemPtr)
    else s
  let s := s.move (itemPtr - itemsShift) (itemPtr + size) s.dataSize
  let s := loopUp (fun s i => s.setDesc i { s.desc i with
      loc := shiftLoc (s.desc i).loc 0 dataShift
      off := (s.desc i).off + 1024 - 1 }) (s.chunksCount - (l.chunk + 1)) (l.chunk + 1) s
  let s := { s with itemsCount := s.itemsCount - 1, dataSize := s.dataSize - dataShift }
  if l.count - 1 = 0 then
    if 0 < l.chunk then s.mergeChunks (l.chunk - 1)
    else if l.chunk + 1 < s.chunksCount then s.mergeChunks l.chunk
    else s
  else s

/-- `page_split_chunk`, src/btree/page_chunks.c:865-999; `hikeySize` is the size of the new key. -/
def Pg.splitChunk (s : Pg) (l : Loc) (hikeySize : Nat) : Pg :=
  let left := l.item
  let right := l.count - l.item
  let first := l.addr + al l.count
  let itemPtr := s.item l
  let leftShift := al l.count - al left
  let rightShift := itemOff (s.mem (l.addr + l.item)) - al right
  let rightFixed := (s.read (l.addr + l.item) right).all fun w => decide (itemFlags w % 2 = 1)
  let tmp := (s.read (l.addr + l.item) right).map fun w => shiftW w 0 rightShift
  let leftFixed := (s.read l.addr left).all fun w => decide (itemFlags w % 2 = 1)
  let s := { s with bad := s.bad || decide (maxChunkItems < right) }
  let s := loopUp (fun s i => s.put (l.addr + i) (shiftW (s.mem (l.addr + i)) 0 leftShift)) left 0 s
  let s := s.move (first - leftShift) first itemPtr
  let dataShift := al right + al left - al l.count
  let s := s.move (itemPtr + dataShift) itemPtr s.dataSize
  let rightPtr := itemPtr - al l.count + al left
  let s := s.copyIn rightPtr tmp
  let dShift := hdrLen (s.chunksCount + 1) - hdrLen s.chunksCount
  let hShift := dShift + hikeySize
  let h0 := 2 * (s.desc 0).hloc
  let hc := 2 * (s.desc l.chunk).hloc
  let s := s.move (hc + hShift) hc s.hikeysEnd
  let s := s.move (h0 + dShift) h0 hc
  let s := loopUp (fun s i => s.setDesc i { s.desc i with hloc := shiftH (s.desc i).hloc dShift 0 })
    (l.chunk + 1) 0 s
  let s := loopDown (fun s i => s.setDesc i { s.desc (i - 1) with
      hloc := shiftH (s.desc (i - 1)).hloc hShift 0
      loc := shiftLoc (s.desc (i - 1)).loc dataShift 0 })
    (s.chunksCount - l.chunk) s.chunksCount s
  let i := l.chunk + 1
  let s := s.setDesc i ⟨rightPtr / 2, (s.desc (i - 1)).off + left,
    shiftH (s.desc (i - 1)).hloc hikeySize 0, rightFixed, (s.desc (i - 1)).flags⟩
  let s := s.setDesc (i - 1) { s.desc (i - 1) with fixed := leftFixed }
  { s with
    chunksCount := s.chunksCount + 1
    hikeysEnd := s.hikeysEnd + hShift
    dataSize := s.dataSize + dataShift }

/-- The key made of the tuple of an item and its flags, with the format flags of the key
(`o_btree_tuple_make_key`, `copy_fixed_key`, src/btree/page_chunks.c:1110-1136). -/
abbrev MkKey := List Nat → Bool → List Nat × Nat

/-- The room for keys in `page_split_chunk_if_needed`, src/btree/page_chunks.c:1023-1054: `none` if
the page has none. -/
def Pg.hikeysFree (s : Pg) : Option Nat :=
  let lim := hikeysLimit s.leaf
  if lim ≤ s.hikeysEnd then none
  else
    let free := lim - s.hikeysEnd
    let free := if s.rightmost && decide (lim = 256) && decide (2 ≤ free) then free - 2 else free
    let d := hdrLen (s.chunksCount + 1) - hdrLen s.chunksCount
    some (if d < free then free - d else 0)

/-- `page_split_chunk_if_needed`, src/btree/page_chunks.c:1004-1152.  Where to split is decided by
floating point scores; here `best` tells the place, if any, and the checks that a place must pass
(1082-1090) are made. -/
def Pg.splitIfNeeded (mk : MkKey) (s : Pg) (l : Loc) (best : Nat) : Pg :=
  match s.hikeysFree with
  | none => s
  | some free =>
    let l := { l with item := best }
    let key := mk (s.read (s.item l) (s.itemSize l)) (decide (itemFlags (s.mem (l.addr + best)) ≠ 0))
    if 1 ≤ best ∧ best < l.count ∧ key.1.length ≤ free ∧
        al best + al (l.count - best) - al l.count ≤ blck - s.dataSize then
      let s := s.splitChunk l key.1.length
      let s := s.copyIn (2 * (s.desc l.chunk).hloc) key.1
      let s := s.setDesc l.chunk { s.desc l.chunk with flags := key.2 }
      { s with hikeysFixed := s.hikeysFixed && decide (key.2 % 2 = 1) }
    else s

/-! ## Reorganization -/

/-- `BTreePageItem`, include/btree/page_chunks.h:26-31: where the item is (in the page, or its contents
elsewhere), its size and flags. -/
inductive Src where
  | own (addr size : Nat) (f : Bool)
  | ext (words : List Nat) (f : Bool)

/-- `items[i].size`, include/btree/page_chunks.h:29. -/
def Src.size : Src → Nat
  | .own _ n _ => n
  | .ext w _ => w.length

/-- `items[i].flags`, include/btree/page_chunks.h:30. -/
def Src.flag : Src → Bool
  | .own _ _ f => f
  | .ext _ f => f

/-- The item itself, `items[i].data`, include/btree/page_chunks.h:28. -/
def Src.words (s : Pg) : Src → List Nat
  | .own a n _ => s.read a n
  | .ext w _ => w

/-- `MAXALIGN_WASTE`, src/btree/page_chunks.c:1001-1002. -/
def waste (n : Nat) : Nat := 3 - (n + 3) % 4

/-- The loop for the boundaries of chunks, src/btree/page_chunks.c:1305-1348.  `cur` are the items of
the chunk at hand (`chunkOffsets[j - 1]` to `i`), `nc` is `j`, `hl` and `dl` are
`hikeysFreeSpaceLeft` and `dataFreeSpaceLeft`, `ds` is `chunkDataSize`.  The comparisons of ratios in
`float4` are left to `cut`; but whatever the rounding, a boundary is only set if the part of the data
is at least 1000/1001 of the part of the key (1329).  The result are the chunks. -/
def cutLoop {α} (klen size : α → Nat) (cut : Nat → Bool) (total hfree : Nat) :
    List α → Nat → Nat → Nat → Nat → Nat → List α → List (List α)
  | [], _, _, _, _, _, cur => [cur]
  | x :: xs, i, nc, hl, dl, ds, cur =>
    let hd := klen x + (hdrLen (nc + 1) - hdrLen nc)
    let dd := waste cur.length
    if hl < hd ∨ dl < dd then cutLoop klen size cut total hfree xs (i + 1) nc hl dl (ds + size x) (cur ++ [x])
    else if cut i = true ∧ 1000 * ((klen x + 2) * total) ≤ 1001 * (ds * hfree) then
      cur :: cutLoop klen size cut total hfree xs (i + 1) (nc + 1) (hl - hd) (dl - dd) (size x) [x]
    else cutLoop klen size cut total hfree xs (i + 1) nc hl dl (ds + size x) (cur ++ [x])

/-- `items[i].flags` into the entries of an item array, src/btree/page_chunks.c:1357-1364; `sh` is
`itemShift`. -/
def arrayOf : Nat → List Src → List Nat
  | _, [] => []
  | sh, x :: xs => (2 * sh + if x.flag then 16384 else 0) :: arrayOf (sh + x.size) xs

/-- The first pass over the items of a chunk, from the last one (src/btree/page_chunks.c:1383-1390):
items of this page that go to a higher place are moved.  The state is the page and `ptr`. -/
def backItem (x : Src) (st : Pg × Nat) : Pg × Nat :=
  let ptr := st.2 - x.size
  match x with
  | .own a n _ => (if a < ptr then st.1.move ptr a (a + n) else st.1, ptr)
  | .ext _ _ => (st.1, ptr)

/-- The first pass over a chunk, src/btree/page_chunks.c:1377-1393. -/
def backChunk (c : List Src) (st : Pg × Nat) : Pg × Nat :=
  let st := c.foldr backItem st
  (st.1, st.2 - al c.length)

/-- The second pass over the items of a chunk, src/btree/page_chunks.c:1412-1418. -/
def placeItems : List Src → Nat → Pg → Pg
  | [], _, s => s
  | x :: xs, ptr, s =>
    placeItems xs (ptr + x.size) <|
      match x with
      | .own a n _ => if ptr < a then s.move ptr a (a + n) else s
      | .ext w _ => s.copyIn ptr w

/-- `chunkFixedKeys[j]`, src/btree/page_chunks.c:1299-1300, 1322-1323, 1335-1336, 1341-1342, 1347: the first item
of an internal page does not count. -/
def fixedKeys (leaf : Bool) (j : Nat) (c : List Src) : Bool :=
  if !leaf && decide (j = 0) then (c.drop 1).all Src.flag else c.all Src.flag

/-- The second pass over the chunks, src/btree/page_chunks.c:1399-1446.  The result is the page,
`hikeysPtr` and `fixedKeys`. -/
def placeChunks (mk : MkKey) (leaf : Bool) :
    List (List Src) → Nat → Nat → Nat → Nat → Bool → Pg → Pg × Nat × Bool
  | [], _, _, _, hptr, fx, s => (s, hptr, fx)
  | c :: cs, j, off, ptr, hptr, fx, s =>
    let s := s.copyIn ptr (arrayOf (al c.length) c)
    let s := s.setDesc j { s.desc j with loc := ptr / 2, off := off, fixed := fixedKeys leaf j c }
    let s := placeItems c (ptr + al c.length) s
    let next := ptr + al c.length + (c.map Src.size).sum
    if j = 0 then placeChunks mk leaf cs (j + 1) (off + c.length) next hptr fx s
    else
      let key := mk (s.read (ptr + itemOff (s.mem ptr)) ((c.map Src.size).headD 0))
        (decide (itemFlags (s.mem ptr) ≠ 0))
      let s := s.copyIn hptr key.1
      let s := s.setDesc (j - 1) { s.desc (j - 1) with flags := key.2, hloc := hptr / 2 }
      placeChunks mk leaf cs (j + 1) (off + c.length) next (hptr + key.1.length)
        (fx && decide (key.2 % 2 = 1)) s

/-- `hikeysEnd` of `btree_page_reorg`, src/btree/page_chunks.c:1246. -/
def dataStart (leaf : Bool) (hk : List Nat) : Nat := max (hikeysLimit leaf) (hdrLen 1 + al hk.length)

/-- The boundaries of chunks in `btree_page_reorg`, src/btree/page_chunks.c:1246-1348. -/
def cutChunks {α} (klen size : α → Nat) (cut : Nat → Bool) (leaf right : Bool) (hk : List Nat)
    (its : List α) : List (List α) :=
  match its with
  | [] => [[]]
  | x :: xs =>
    let e := dataStart leaf hk
    let total := (its.map size).sum
    let hl := e - (hdrLen 1 + al hk.length)
    let hfree := if right && decide (e = 256) && decide (2 ≤ hl) then hl - 2 else hl
    let dl := blck - e - total - al its.length
    cutLoop klen size cut total hfree xs 1 1 hl dl (size x) [x]

/-- `BTREE_PAGE_MAX_CHUNKS`, include/btree/page_contents.h:110-112: (512 - 56) / 12. -/
def maxChunks : Nat := 38

/-- `btree_page_reorg`, src/btree/page_chunks.c:1217-1472.  `right` is the flag of the rightmost page,
set before by the callers (e.g. src/btree/split.c:499), which then give no key of the page (`hk`).  The
key is not in the memory of the page.  When the items do not fit, an error is raised and the page is
left as it was (1273-1283).  `maxKeyLen` is not modelled. -/
def Pg.reorg (mk : MkKey) (cut : Nat → Bool) (s : Pg) (right : Bool) (its : List Src)
    (hikey : List Nat × Nat) : Pg :=
  let hk := if right then [] else hikey.1
  let e := dataStart s.leaf hk
  if blck < e + (its.map Src.size).sum + al its.length then s
  else
    let chunks := cutChunks (fun x => (mk (x.words s) x.flag).1.length) Src.size cut s.leaf right hk its
    let dataEnd := e + (chunks.map fun c => al c.length + (c.map Src.size).sum).sum
    let s :=
      { s with
        rightmost := right
        dataSize := dataEnd
        chunksCount := chunks.length
        bad := s.bad || decide (maxChunks < chunks.length ∨ maxChunkItems < its.length) }
    let s := (chunks.foldr backChunk (s, dataEnd)).1
    let (s, hptr, fx) := placeChunks mk s.leaf chunks 0 0 e (hdrLen chunks.length) true s
    let j := chunks.length
    let s := if right then s else s.copyIn hptr hk
    let s := s.setDesc (j - 1) { s.desc (j - 1) with
      flags := if right then 0 else hikey.2
      hloc := hptr / 2 }
    { s with
      hikeysEnd := hptr + hk.length
      itemsCount := its.length
      hikeysFixed := fx && (right || decide (hikey.2 % 2 = 1)) }

/-! ## Reading a page -/

/-- `BTREE_PAGE_FOREACH_ITEMS`, include/btree/page_contents.h:189-192 with
`page_locator_next_chunk` (src/btree/page_chunks.c:427-443), which passes over empty chunks: all
positions. -/
def Pg.locs (s : Pg) : List Loc :=
  (List.range s.chunksCount).flatMap fun c =>
    (List.range (s.fill c).count).map fun i => { s.fill c with item := i }

/-- A tuple with its header, and the flag of its format (include/btree/page_contents.h:173-175). -/
structure Item where
  flag : Bool
  words : List Nat
deriving DecidableEq, Repr

/-- `BTREE_PAGE_LOCATOR_GET_ITEM`, `BTREE_PAGE_GET_ITEM_SIZE` and `BTREE_PAGE_GET_ITEM_FLAGS` for a
position, as in src/btree/page_chunks.c:1485-1487. -/
def Pg.itemAt (s : Pg) (l : Loc) : Item :=
  ⟨decide (itemFlags (s.mem (l.addr + l.item)) ≠ 0), s.read (s.item l) (s.itemSize l)⟩

/-- All items of the page, as in src/btree/page_chunks.c:1483-1489. -/
def Pg.items (s : Pg) : List Item := s.locs.map s.itemAt

/-- The key of a chunk and its flags: from its location to that of the next one, or to `hikeysEnd`
(`page_get_hikey_size`, src/btree/page_contents.c:818-828; for chunks inside the page the length is
that of the tuple, here up to the next key). -/
def Pg.keyAt (s : Pg) (c : Nat) : List Nat × Nat :=
  let a := 2 * (s.desc c).hloc
  let b := if c + 1 < s.chunksCount then 2 * (s.desc (c + 1)).hloc else s.hikeysEnd
  (s.read a (b - a), (s.desc c).flags)

/-- What a reader sees: for each chunk its items, its mark `chunkKeysFixed`, and its key
(include/btree/page_contents.h:84-91). -/
structure Chunk where
  items : List Item
  fixed : Bool
  key : List Nat
  kflags : Nat
deriving DecidableEq, Repr

/-- A chunk, read by the functions above (`page_chunk_fill_locator`, src/btree/page_chunks.c:364-387). -/
def Pg.chunkAt (s : Pg) (c : Nat) : Chunk :=
  ⟨(List.range (s.fill c).count).map fun i => s.itemAt { s.fill c with item := i },
    (s.desc c).fixed, (s.keyAt c).1, (s.keyAt c).2⟩

/-- All chunks of the page (`chunksCount`, include/btree/page_contents.h:124-154). -/
def Pg.chunks (s : Pg) : List Chunk := (List.range s.chunksCount).map s.chunkAt

/-! ## Operations on a page -/

/-- A source of an item in a reorganization: an item of this page, by its number, of which the first
`n` units are taken (fewer than it has if its key is cut, src/btree/split.c:458-461), or a new one. -/
inductive Pick where
  | old (k n : Nat)
  | new (it : Item)

/-- The array given to `btree_page_reorg`, e.g. src/btree/page_chunks.c:1483-1489. -/
def Pg.pick (s : Pg) : Pick → Src
  | .old k n =>
    match s.locs[k]? with
    | some l => .own (s.item l) n (s.itemAt l).flag
    | none => .ext [] false
  | .new it => .ext it.words it.flag

/-- What is done to a page, with the place in src/btree. -/
inductive Op where
  /-- src/btree/insert.c:1052-1076 and 1437-1508; without `clear` src/btree/build.c:163,
  src/checkpoint/checkpoint.c:4497 -/
  | insert (c i : Nat) (it : Item) (clear : Bool)
  /-- src/btree/insert.c:1455-1508 -/
  | replace (c i : Nat) (it : Item)
  /-- src/btree/undo.c:228-273 -/
  | rollback (c i : Nat) (it : Item) (resize : Bool)
  /-- src/btree/page_contents.c:561-579 -/
  | cutFirst
  /-- src/btree/page_chunks.c:784-860 -/
  | delete (c i : Nat)
  /-- src/btree/page_chunks.c:1004-1152 -/
  | split (c best : Nat)
  /-- src/btree/page_chunks.c:1217-1472 -/
  | reorg (right : Bool) (picks : List Pick) (key : List Nat) (kflags : Nat) (cut : Nat → Bool)

/-- `page_locator_fits_new_item`, src/btree/page_chunks.c:545-557, and
`page_locator_insert_item` and what follows it in src/btree/insert.c:1063-1075, 1444, 1500-1508. -/
def Pg.doInsert (s : Pg) (c i : Nat) (it : Item) (clear : Bool) : Pg :=
  let l := { s.fill c with item := i }
  if al (l.count + 1) - al l.count + al it.words.length ≤ blck - s.dataSize then
    let s := (s.insertItem l it.words.length).writeItem l it.words it.flag
    if clear then s.clearFixed l it.flag else s
  else s

/-- A new tuple in place of one, src/btree/insert.c:1455-1508: the item only grows.  That it fits
is checked before (`page_locator_fits_item`, src/btree/page_chunks.c:224-336). -/
def Pg.doReplace (s : Pg) (c i : Nat) (it : Item) : Pg :=
  let l := { s.fill c with item := i }
  let old := s.itemSize l
  if it.words.length - old ≤ blck - s.dataSize then
    let s := if old < it.words.length then s.resizeItem l it.words.length else s
    (s.writeItem l it.words it.flag).clearFixed l it.flag
  else s

/-- The former tuple comes back in the place of an item (not longer than it), and the item shrinks
if no older versions are left, src/btree/undo.c:228-273. -/
def Pg.doRollback (s : Pg) (c i : Nat) (it : Item) (resize : Bool) : Pg :=
  let l := { s.fill c with item := i }
  let s := s.copyIn (s.item l) it.words
  let s := if resize then s.resizeItem l it.words.length else s
  s.put (l.addr + l.item) (itemSet (s.mem (l.addr + l.item)) it.flag)

/-- `page_cut_first_key`, src/btree/page_contents.c:561-579: 8 bytes are left. -/
def Pg.doCutFirst (s : Pg) : Pg :=
  let l := s.fill 0
  let tmp := s.read (s.item l) 4
  let s := s.resizeItem l 4
  s.copyIn (s.item l) tmp

/-- An operation, as done at the places in src/btree named with `Op`. -/
def Pg.step (mk : MkKey) (s : Pg) : Op → Pg
  | .insert c i it clear => s.doInsert c i it clear
  | .replace c i it => s.doReplace c i it
  | .rollback c i it rs => s.doRollback c i it rs
  | .cutFirst => s.doCutFirst
  | .delete c i => s.deleteItem { s.fill c with item := i }
  | .split c best => s.splitIfNeeded mk (s.fill c) best
  | .reorg right picks key kflags cut => s.reorg mk cut right (picks.map s.pick) (key, kflags)

/-- `init_page_first_chunk` with no key (as all callers do), src/btree/page_chunks.c:338-362, on any
contents of memory. -/
def Pg.fresh (mem : Nat → Nat) (leaf : Bool) : Pg :=
  let s : Pg := ⟨mem, leaf, true, true, 1, 0, hdrLen 1, hikeysLimit leaf, false⟩
  s.setDesc 0 ⟨hikeysLimit leaf / 2, 0, hdrLen 1 / 2, true, 0⟩

/-- A run. -/
def Pg.run (mk : MkKey) (s : Pg) (ops : List Op) : Pg := ops.foldl (Pg.step mk) s

end Verif.PageChunks
