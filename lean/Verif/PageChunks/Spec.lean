import Verif.PageChunks.Model

/-!
# Bytes of B-tree pages: what they stand for

A page is a list of chunks, each with its items and the key at its end; operations are those of
lists.  Only whether there is room is a matter of sizes.
-/

namespace Verif.PageChunks

/-- The contents of a page.  `start` is where its chunks begin (src/btree/page_chunks.c:351-354,
1351). -/
structure Page where
  leaf : Bool
  right : Bool
  start : Nat
  chunks : List Chunk

/-- The size of an item array and its items, src/btree/page_chunks.c:1357-1364. -/
def csize (c : Chunk) : Nat := al c.items.length + (c.items.map (·.words.length)).sum

/-- The size of all chunks, src/btree/page_chunks.c:1351-1367. -/
def dsize (P : List Chunk) : Nat := (P.map csize).sum

/-- The size of all keys, src/btree/page_chunks.c:1443, 1458. -/
def ksize (P : List Chunk) : Nat := (P.map (·.key.length)).sum

/-- The number of items, src/btree/page_chunks.c:1467. -/
def icount (P : List Chunk) : Nat := (P.map (·.items.length)).sum

/-- Free space (`BTREE_PAGE_FREE_SPACE`, include/btree/page_contents.h:265-266). -/
def Page.room (P : Page) : Nat := blck - (P.start + dsize P.chunks)

/-- The end of the keys (`hikeysEnd`, src/btree/page_chunks.c:1466). -/
def Page.keysEnd (P : Page) : Nat := hdrLen P.chunks.length + ksize P.chunks

/-- All items of a page, in their order. -/
def Page.items (P : Page) : List Item := P.chunks.flatMap (·.items)

/-- A chunk that is not there has no items. -/
def Chunk.none : Chunk := ⟨[], true, [], 0⟩

/-- The chunk with a number. -/
def Page.chunk (P : Page) (c : Nat) : Chunk := P.chunks.getD c .none

/-- A chunk is changed. -/
def Page.upd (P : Page) (c : Nat) (f : Chunk → Chunk) : Page := { P with chunks := P.chunks.modify c f }

/-- Insertion of an item, if there is room. -/
def Page.insert (P : Page) (c i : Nat) (it : Item) (clear : Bool) : Page :=
  let n := (P.chunk c).items.length
  if al (n + 1) - al n + it.words.length ≤ P.room then
    P.upd c fun k => { k with items := k.items.insertIdx i it, fixed := k.fixed && (it.flag || !clear) }
  else P

/-- New contents in an item that stays as long as it was, if it was longer. -/
def Item.over (o it : Item) : Item := ⟨it.flag, it.words ++ o.words.drop it.words.length⟩

/-- Replacement of an item, if there is room. -/
def Page.replace (P : Page) (c i : Nat) (it : Item) : Page :=
  let old := (P.chunk c).items.getD i it
  if it.words.length - old.words.length ≤ P.room then
    P.upd c fun k => { k with items := k.items.modify i (·.over it), fixed := k.fixed && it.flag }
  else P

/-- An item gets its former contents back. -/
def Page.rollback (P : Page) (c i : Nat) (it : Item) (resize : Bool) : Page :=
  P.upd c fun k => { k with items := k.items.modify i fun o => if resize then it else o.over it }

/-- Only the header of the first item stays. -/
def Page.cutFirst (P : Page) : Page :=
  P.upd 0 fun k => { k with items := k.items.modify 0 fun o => ⟨o.flag, o.words.take 4⟩ }

/-- Two chunks become one: the key is that of the second. -/
def Chunk.join (a b : Chunk) : Chunk := ⟨a.items ++ b.items, a.fixed && b.fixed, b.key, b.kflags⟩

/-- The chunk with a number and the next one are joined. -/
def joinAt : Nat → List Chunk → List Chunk
  | 0, a :: b :: l => a.join b :: l
  | n + 1, a :: l => a :: joinAt n l
  | _, l => l

/-- Deletion of an item; a chunk left empty joins the one before it, or, if it is the first, the next
one. -/
def Page.delete (P : Page) (c i : Nat) : Page :=
  let Q := P.upd c fun k => { k with items := k.items.eraseIdx i }
  if (P.chunk c).items.length = 1 then { Q with chunks := joinAt (c - 1) Q.chunks } else Q

/-- A chunk is split before its item `i`; the key of that item becomes the key between the two. -/
def splitAt (mk : MkKey) (i : Nat) : Nat → List Chunk → List Chunk
  | 0, a :: l =>
    let key := mk (a.items.getD i ⟨false, []⟩).words (a.items.getD i ⟨false, []⟩).flag
    ⟨a.items.take i, (a.items.take i).all (·.flag), key.1, key.2⟩ ::
      ⟨a.items.drop i, (a.items.drop i).all (·.flag), a.key, a.kflags⟩ :: l
  | n + 1, a :: l => a :: splitAt mk i n l
  | _, [] => []

/-- The room for one more key and chunk, src/btree/page_chunks.c:1032-1054: on the rightmost page 4
bytes are kept free if keys may take 512 bytes. -/
def Page.keyRoom (P : Page) : Nat :=
  let free := hikeysLimit P.leaf - P.keysEnd
  (if P.right && !P.leaf && decide (2 ≤ free) then free - 2 else free) -
    (hdrLen (P.chunks.length + 1) - hdrLen P.chunks.length)

/-- A chunk is split if both parts have items and there is room. -/
def Page.split (mk : MkKey) (P : Page) (c best : Nat) : Page :=
  let k := P.chunk c
  let it := k.items.getD best ⟨false, []⟩
  if P.keysEnd < hikeysLimit P.leaf ∧ 1 ≤ best ∧ best < k.items.length ∧
      (mk it.words it.flag).1.length ≤ P.keyRoom ∧
      al best + al (k.items.length - best) - al k.items.length ≤ P.room then
    { P with chunks := splitAt mk best c P.chunks }
  else P

/-- The item for a source. -/
def Page.pick (P : Page) : Pick → Item
  | .old k n => match P.items[k]? with
    | some it => ⟨it.flag, it.words.take n⟩
    | none => ⟨false, []⟩
  | .new it => it

/-- The mark of a chunk in a reorganization; the first item of an internal page does not count. -/
def fixedItems (leaf first : Bool) (l : List Item) : Bool :=
  if !leaf && first then (l.drop 1).all (·.flag) else l.all (·.flag)

/-- Chunks from the items of each and the key of the page: the key of a chunk is that of the first
item of the next. -/
def mkChunks (mk : MkKey) (leaf : Bool) (hk : List Nat × Nat) : Bool → List (List Item) → List Chunk
  | _, [] => []
  | first, [l] => [⟨l, fixedItems leaf first l, hk.1, hk.2⟩]
  | first, l :: m :: r =>
    let it := m.getD 0 ⟨false, []⟩
    let key := mk it.words it.flag
    ⟨l, fixedItems leaf first l, key.1, key.2⟩ :: mkChunks mk leaf hk false (m :: r)

/-- A reorganization, if there is room: the given items, cut to chunks somehow. -/
def Page.reorg (mk : MkKey) (cut : Nat → Bool) (P : Page) (right : Bool) (its : List Item)
    (hikey : List Nat × Nat) : Page :=
  let hk := if right then ([], 0) else hikey
  let e := dataStart P.leaf hk.1
  if blck < e + (its.map (·.words.length)).sum + al its.length then P
  else
    ⟨P.leaf, right, e, mkChunks mk P.leaf hk true
      (cutChunks (fun it => (mk it.words it.flag).1.length) (·.words.length) cut P.leaf right hk.1 its)⟩

/-- The operations on the contents. -/
def Page.step (mk : MkKey) (P : Page) : Op → Page
  | .insert c i it clear => P.insert c i it clear
  | .replace c i it => P.replace c i it
  | .rollback c i it rs => P.rollback c i it rs
  | .cutFirst => P.cutFirst
  | .delete c i => P.delete c i
  | .split c best => P.split mk c best
  | .reorg right picks key kflags cut => P.reorg mk cut right (picks.map P.pick) (key, kflags)

/-- A page without items (src/btree/page_chunks.c:338-362). -/
def Page.fresh (leaf : Bool) : Page := ⟨leaf, true, hikeysLimit leaf, [⟨[], true, [], 0⟩]⟩

/-- A run. -/
def Page.run (mk : MkKey) (P : Page) (ops : List Op) : Page := ops.foldl (Page.step mk) P

/-- Sizes of items are multiples of 8 bytes and at least 8. -/
def Item.ok (it : Item) : Prop := it.words.length % 4 = 0 ∧ 4 ≤ it.words.length

/-- Keys are padded to multiples of 8 bytes, and their flags have two bits. -/
def MkOk (mk : MkKey) : Prop := ∀ w f, (mk w f).1.length % 4 = 0 ∧ (mk w f).2 < 4

/-- Sources in a reorganization: items of the page are taken in their order, each at most once. -/
def PicksOk (P : Page) : Nat → List Pick → Prop
  | _, [] => True
  | lo, .old k n :: l => lo ≤ k ∧ n % 4 = 0 ∧ 4 ≤ n ∧
      (∃ it, P.items[k]? = some it ∧ n ≤ it.words.length) ∧ PicksOk P (k + 1) l
  | lo, .new it :: l => it.ok ∧ PicksOk P lo l

/-- What callers see to. -/
def Op.ok (mk : MkKey) (P : Page) : Op → Prop
  | .insert c i it _ => c < P.chunks.length ∧ i ≤ (P.chunk c).items.length ∧ it.ok
  | .replace c i it => c < P.chunks.length ∧ i < (P.chunk c).items.length ∧ it.ok
  | .rollback c i it _ => c < P.chunks.length ∧ it.ok ∧
      ∃ o, (P.chunk c).items[i]? = some o ∧ it.words.length ≤ o.words.length
  | .cutFirst => 0 < (P.chunk 0).items.length
  | .delete c i => c < P.chunks.length ∧ i < (P.chunk c).items.length
  | .split c best => c < P.chunks.length ∧
      ∀ it, (P.chunk c).items[best]? = some it → 4 ≤ (mk it.words it.flag).1.length
  | .reorg right picks key kflags _ => PicksOk P 0 picks ∧
      (∀ p ∈ picks.drop 1, 4 ≤ (mk (P.pick p).words (P.pick p).flag).1.length) ∧
      (right = false → key.length % 4 = 0 ∧ 4 ≤ key.length ∧ kflags < 4)

end Verif.PageChunks
