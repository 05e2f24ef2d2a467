import Verif.PageSplit.Model

/-!
# Build of an index: model

An index is built from its sorted rows: for every level of the tree there is one page in memory;
when it is full, it is written and a downlink to it is put on the level above.  Downlinks are the
numbers of the written pages (`body` of the tuple of an item of an internal page), written pages
never change.
-/

namespace Verif.PageSplit

/-- `ORIOLEDB_MAX_DEPTH`, include/orioledb.h:120. -/
def maxDepth : Nat := 32

/-- `OIndexBuildStackItem`, src/btree/build.c:43-49: the page in memory and the key its range
begins with (`none`: no lower bound, `keysize = 0`).  The locator always is at the end. -/
structure Lvl where
  page : Page
  key : Option Tup
deriving Repr

/-- The state of a build: the array of `btree_write_index_data`, src/btree/build.c:298-329,
`root_level`, and the pages written. -/
structure Bld where
  lvls : List Lvl
  root : Nat
  disk : List Page
deriving Repr

/-- What a build comes to.  `error` is the error of `btree_page_reorg`; `undef`: a variable is read
that was not set, or bytes beyond the page or the array are written.
src/btree/page_chunks.c:1273-1283; src/btree/split.c:323-346; src/btree/build.c:148. -/
inductive BOut where
  | ok (b : Bld)
  | error
  | undef
deriving Repr

/-- src/btree/build.c:313, 322-329. -/
def Bld.init : Bld :=
  ⟨⟨Page.empty true, none⟩ :: List.replicate (maxDepth - 1) ⟨Page.empty false, none⟩, 0, []⟩

/-- `put_downlink_to_stack`, src/btree/build.c:261-275: the item of a downlink. -/
def downItem (k : Option Tup) (d : Nat) : Item :=
  match k with
  | none => ⟨⟨⟨0, 0, 0, d⟩, false, []⟩, itemHdr false⟩
  | some t => ⟨⟨⟨t.key, t.klen, t.klen, d⟩, false, []⟩, itemHdr false + ma t.klen⟩

/-- `put_tuple_to_stack`, src/btree/build.c:277-291: the item of a row. -/
def rowItem (t : Tup) : Item := ⟨⟨t, false, []⟩, need true t⟩

/-- src/btree/build.c:150-159: the item is put on the page as it is.  The difference is computed
without sign; if it would be negative the check of the fill factor passes.
`page_locator_fits_item`, src/btree/page_chunks.c:223-336, only has the room left to look at: no
item of the page is deleted or larger than its row. -/
def buildFits (ff : Nat) (p : Page) (size : Nat) : Bool :=
  let free := blck - p.dataSize
  let n := p.items.length
  (decide (free < size) || decide (free - size ≥ blck * (100 - ff) / 100)) &&
    decide (p.dataSize + (size + arr (n + 1) - arr n) ≤ blck)

/-- `put_item_to_stack`, src/btree/build.c:138-259, with `stack_page_split`, 63-136; `f` bounds the
recursion.  `cut` stands for the places where chunks begin on the page written, given its number. -/
def putStack (ff : Nat) (cut : Nat → Nat → Bool) : Nat → Nat → Item → Bld → BOut
  | 0, _, _, _ => .undef
  | f + 1, lvl, it, b =>
    match b.lvls[lvl]? with
    | none => .undef
    | some L =>
      if buildFits ff L.page it.size then
        .ok { b with
          lvls := b.lvls.set lvl { L with page :=
            { L.page with chunks := [L.page.items ++ [it]] } } }
      else
        let n := L.page.items.length
        let s := makeSplitItems (updateMaxKey L.page) false (fun _ => none) none it n
        match findLocation s n (fun _ _ => true) with
        | none => .undef
        | some k =>
          match s.items.drop k with
          | [] => .undef
          | x :: xs =>
            if hikeysEnd L.page.leaf + chunkSize (x :: xs) > blck then .undef
            else
              match reorg (cut b.disk.length) L.page.leaf (some x.row.tup) (s.items.take k) with
              | none => .error
              | some left =>
                putStack ff cut f (lvl + 1) (downItem L.key b.disk.length)
                  { lvls := b.lvls.set lvl ⟨{ Page.empty L.page.leaf with
                      chunks := [cutFirst L.page.leaf (x :: xs)] }, some x.row.tup⟩
                    root := if lvl = b.root then lvl + 1 else b.root
                    disk := b.disk ++ [left] }

/-- The rows are put, src/btree/build.c:331-337. -/
def putRows (ff : Nat) (cut : Nat → Nat → Bool) : List Tup → Bld → BOut
  | [], b => .ok b
  | t :: ts, b =>
    match putStack ff cut (maxDepth + 1) 0 (rowItem t) b with
    | .ok b' => putRows ff cut ts b'
    | r => r

/-- The pages left in memory are written, src/btree/build.c:345-364: `i` is the level, `f` what is
left of `saved_root_level`. -/
def finish (ff : Nat) (cut : Nat → Nat → Bool) : Nat → Nat → Bld → BOut
  | 0, _, b => .ok b
  | f + 1, i, b =>
    match b.lvls[i]? with
    | none => .undef
    | some L =>
      match reorg (cut b.disk.length) L.page.leaf none L.page.items with
      | none => .error
      | some q =>
        match putStack ff cut (maxDepth + 1) (i + 1) (downItem L.key b.disk.length)
            { b with disk := b.disk ++ [q] } with
        | .ok b' => finish ff cut f (i + 1) b'
        | r => r

/-- The root is written, src/btree/build.c:366-389. -/
def writeRoot (cut : Nat → Nat → Bool) (b : Bld) : BOut :=
  match b.lvls[b.root]? with
  | none => .undef
  | some L =>
    match reorg (cut b.disk.length) L.page.leaf none L.page.items with
    | none => .error
    | some q => .ok { b with disk := b.disk ++ [q] }

/-- `btree_write_index_data`, src/btree/build.c:293-408: the rows, as the sort gives them, become a
tree; its root is the page written last, at level `root`.  The header of the file is left out. -/
def buildIndex (ff : Nat) (cut : Nat → Nat → Bool) (rows : List Tup) : BOut :=
  match putRows ff cut rows Bld.init with
  | .ok b =>
    match finish ff cut b.root 0 b with
    | .ok b' => writeRoot cut b'
    | r => r
  | r => r

/-- The level of the root before the pages left are written (`saved_root_level`,
src/btree/build.c:343). -/
def savedRoot (ff : Nat) (cut : Nat → Nat → Bool) (rows : List Tup) : Option Nat :=
  match putRows ff cut rows Bld.init with
  | .ok b => some b.root
  | _ => none

end Verif.PageSplit
