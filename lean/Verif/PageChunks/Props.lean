import Verif.PageChunks.Flat

/-!
# Bytes of B-tree pages: properties

C69: whatever is done to a page, a reader finds in its bytes the chunks, items and keys that the same
operations on lists give, and nothing outside of the page or of a temporary array is touched.

C70: the marks that let a search go without looking at the formats of items and keys are only set when
it may, and then items and keys are where the search looks for them.
-/

namespace Verif.PageChunks

/-- A page made by `init_page_first_chunk` and changed by operations, src/btree/page_chunks.c:338-362. -/
def made (mk : MkKey) (mem : Nat → Nat) (leaf : Bool) (ops : List Op) : Pg := (Pg.fresh mem leaf).run mk ops

/-- What the operations do to lists. -/
def wanted (mk : MkKey) (leaf : Bool) (ops : List Op) : Page := (Page.fresh leaf).run mk ops

theorem step_leaf (mk : MkKey) (P : Page) (op : Op) : (P.step mk op).leaf = P.leaf := by
  cases op <;> unfold Page.step <;> simp only
  · unfold Page.insert; simp only; split <;> rfl
  · unfold Page.replace; simp only; split <;> rfl
  · rfl
  · rfl
  · unfold Page.delete; simp only; split <;> rfl
  · unfold Page.split; simp only; split <;> rfl
  · unfold Page.reorg
    simp only
    split <;> split <;> rfl

theorem run_leaf (mk : MkKey) (ops : List Op) (P : Page) : (P.run mk ops).leaf = P.leaf := by
  induction ops generalizing P with
  | nil => rfl
  | cons o ops ih => exact (ih _).trans (step_leaf mk P o)

/-! ## C69 -/

theorem made_rep {mk mem leaf ops} (hm : MkOk mk) (h : RunOk mk (Page.fresh leaf) ops) :
    Rep (made mk mem leaf ops) (wanted mk leaf ops) := (Rep.fresh mem leaf).run hm h

/-- C69: chunks, with their items, keys and marks, are read back as lists would have them; all items, in
order; no access was outside of the page; keys are after the header and before the items, which end in
the page. -/
theorem page_contents {mk mem leaf ops} (hm : MkOk mk) (h : RunOk mk (Page.fresh leaf) ops) :
    (made mk mem leaf ops).chunks = (wanted mk leaf ops).chunks ∧
    (made mk mem leaf ops).items = (wanted mk leaf ops).items ∧
    (made mk mem leaf ops).bad = false ∧
    hdrLen (made mk mem leaf ops).chunksCount ≤ (made mk mem leaf ops).hikeysEnd ∧
    (made mk mem leaf ops).hikeysEnd ≤ 2 * ((made mk mem leaf ops).desc 0).loc ∧
    2 * ((made mk mem leaf ops).desc 0).loc ≤ (made mk mem leaf ops).dataSize ∧
    (made mk mem leaf ops).dataSize ≤ blck := by
  have R := made_rep (mem := mem) hm h
  refine ⟨R.read, R.readItems, R.fine, ?_, ?_, ?_, ?_⟩
  · rw [R.kend, R.count]; omega
  all_goals have hc : 0 < (wanted mk leaf ops).chunks.length := List.length_pos_iff.mpr R.some
  all_goals obtain ⟨xs, ys, hs⟩ := chunkSplit hc
  all_goals have hx : xs = [] := List.length_eq_zero_iff.mp hs.len
  all_goals subst hx
  all_goals have d := (R.facts hs).desc
  all_goals have a := (R.facts hs).amod
  all_goals simp only [dsize, List.map_nil, List.sum_nil, Nat.add_zero, List.length_nil] at d a
  all_goals have hblck : blck = 4096 := rfl
  all_goals have k1 := R.kfit
  all_goals have k2 := R.dend
  all_goals have k3 := R.fit
  all_goals have k4 := R.kend
  · rw [d]; simp only; omega
  · rw [d]; simp only; omega
  · omega

/-- C69: the check before a page is unlocked (src/btree/page_state.c:922-932) never stops the server. -/
theorem page_not_broken {mk mem leaf ops} (hm : MkOk mk) (h : RunOk mk (Page.fresh leaf) ops) :
    2 * ((made mk mem leaf ops).desc ((made mk mem leaf ops).chunksCount - 1)).loc ≤ (made mk mem leaf ops).dataSize ∧
    (made mk mem leaf ops).dataSize ≤ blck := by
  have R := made_rep (mem := mem) hm h
  refine ⟨?_, (page_contents hm h).2.2.2.2.2.2⟩
  have hp : 0 < (wanted mk leaf ops).chunks.length := List.length_pos_iff.mpr R.some
  obtain ⟨xs, ys, hs⟩ := chunkSplit (P := wanted mk leaf ops) (c := (wanted mk leaf ops).chunks.length - 1) (by omega)
  have f := R.facts hs
  have d := f.desc
  rw [hs.len] at d
  have e := f.dend
  rw [R.count, d]
  simp only
  omega

theorem RunOk.split {mk : MkKey} {P : Page} {ops : List Op} {op : Op} (h : RunOk mk P (ops ++ [op])) :
    RunOk mk P ops ∧ op.ok mk (P.run mk ops) := by
  induction ops generalizing P with
  | nil => exact ⟨trivial, h.1⟩
  | cons o ops ih =>
    have := ih h.2
    exact ⟨⟨h.1, this.1⟩, this.2⟩

theorem wanted_snoc (mk : MkKey) (leaf : Bool) (ops : List Op) (op : Op) :
    wanted mk leaf (ops ++ [op]) = (wanted mk leaf ops).step mk op := by
  unfold wanted Page.run
  rw [List.foldl_append]
  rfl

theorem made_items {mk mem leaf ops} (hm : MkOk mk) (h : RunOk mk (Page.fresh leaf) ops) :
    (made mk mem leaf ops).items = (wanted mk leaf ops).items := (made_rep hm h).readItems

/-- C69: an insertion puts the item at its place among all items of the page, or, if it does not fit,
leaves the items as they were. -/
theorem page_insert_item {mk mem leaf ops c i it clear} (hm : MkOk mk)
    (h : RunOk mk (Page.fresh leaf) (ops ++ [.insert c i it clear])) :
    (made mk mem leaf (ops ++ [.insert c i it clear])).items =
        (made mk mem leaf ops).items.insertIdx ((wanted mk leaf ops).before c + i) it ∨
    ((made mk mem leaf (ops ++ [.insert c i it clear])).items = (made mk mem leaf ops).items ∧
      blck < (made mk mem leaf ops).dataSize + it.words.length + 4) := by
  have hs := h.split
  rw [made_items hm h, made_items hm hs.1, wanted_snoc]
  have R := made_rep (mem := mem) hm hs.1
  rcases Page.insert_items (wanted mk leaf ops) c i it clear hs.2.1 hs.2.2.1 with h1 | ⟨h1, h2⟩
  · exact Or.inl h1
  · right
    refine ⟨by rw [← h1]; exact congrArg Page.items (by rw [h1]; exact h1), ?_⟩
    have hr := R.room
    have a1 := al_le ((wanted mk leaf ops).chunk c).items.length
    have : al (((wanted mk leaf ops).chunk c).items.length + 1) ≤ al ((wanted mk leaf ops).chunk c).items.length + 4 := by
      unfold al; omega
    omega

/-- C69: a replacement changes only its item; what is left of a longer one stays behind the new
contents. -/
theorem page_replace_item {mk mem leaf ops c i it} (hm : MkOk mk)
    (h : RunOk mk (Page.fresh leaf) (ops ++ [.replace c i it])) :
    ∃ old, (made mk mem leaf ops).items[(wanted mk leaf ops).before c + i]? = some old ∧
    ((made mk mem leaf (ops ++ [.replace c i it])).items =
        (made mk mem leaf ops).items.set ((wanted mk leaf ops).before c + i)
          ⟨it.flag, it.words ++ old.words.drop it.words.length⟩ ∨
    ((made mk mem leaf (ops ++ [.replace c i it])).items = (made mk mem leaf ops).items ∧
      blck + old.words.length < (made mk mem leaf ops).dataSize + it.words.length)) := by
  have hs := h.split
  rw [made_items hm h, made_items hm hs.1, wanted_snoc]
  have R := made_rep (mem := mem) hm hs.1
  obtain ⟨h1, h2, h3⟩ := hs.2
  change c < (wanted mk leaf ops).chunks.length at h1
  change i < ((wanted mk leaf ops).chunk c).items.length at h2
  obtain ⟨xs, ys, hsp⟩ := chunkSplit h1
  obtain ⟨l, o, r, hk, hl⟩ := chunk_items_split h2
  have hb := before_mid hsp
  have e0 : (wanted mk leaf ops).items = (xs.flatMap (·.items) ++ l) ++ o :: (r ++ ys.flatMap (·.items)) := by
    rw [items_mid hsp, hk]; simp
  have hpos : (wanted mk leaf ops).before c + i = (xs.flatMap (·.items) ++ l).length := by
    rw [hb, List.length_append, hl]
  have hgd : ((wanted mk leaf ops).chunk c).items.getD i it = o := by
    rw [hk, ← hl]; simp
  refine ⟨o, ?_, ?_⟩
  · rw [hpos, e0]; simp
  · show ((wanted mk leaf ops).replace c i it).items = _ ∨ (((wanted mk leaf ops).replace c i it).items = _ ∧ _)
    unfold Page.replace
    simp only
    rw [hgd]
    have hr := R.room
    split
    · left
      rw [upd_items hsp, hpos, e0]
      simp only
      have hmod : ((wanted mk leaf ops).chunk c).items.modify i (·.over it) = l ++ o.over it :: r := by
        rw [hk, ← hl, List.modify_mid]
      rw [hmod]
      simp [Item.over]
    · right
      refine ⟨rfl, ?_⟩
      omega

/-- C69: a rollback gives the former contents back to its item and changes no other. -/
theorem page_rollback_item {mk mem leaf ops c i it rs} (hm : MkOk mk)
    (h : RunOk mk (Page.fresh leaf) (ops ++ [.rollback c i it rs])) :
    ∃ old, (made mk mem leaf ops).items[(wanted mk leaf ops).before c + i]? = some old ∧
    (made mk mem leaf (ops ++ [.rollback c i it rs])).items =
        (made mk mem leaf ops).items.set ((wanted mk leaf ops).before c + i)
          ⟨it.flag, it.words ++ if rs then [] else old.words.drop it.words.length⟩ := by
  have hs := h.split
  rw [made_items hm h, made_items hm hs.1, wanted_snoc]
  obtain ⟨h1, h2, o, h3, h4⟩ := hs.2
  change c < (wanted mk leaf ops).chunks.length at h1
  change ((wanted mk leaf ops).chunk c).items[i]? = some o at h3
  obtain ⟨xs, ys, hsp⟩ := chunkSplit h1
  obtain ⟨l, r, hk, hl⟩ := list_split h3
  have hb := before_mid hsp
  have e0 : (wanted mk leaf ops).items = (xs.flatMap (·.items) ++ l) ++ o :: (r ++ ys.flatMap (·.items)) := by
    rw [items_mid hsp, hk]; simp
  have hpos : (wanted mk leaf ops).before c + i = (xs.flatMap (·.items) ++ l).length := by
    rw [hb, List.length_append, hl]
  refine ⟨o, ?_, ?_⟩
  · rw [hpos, e0]; simp
  · show ((wanted mk leaf ops).rollback c i it rs).items = _
    unfold Page.rollback
    rw [upd_items hsp, hpos, e0]
    simp only
    have hmod : ∀ f : Item → Item, ((wanted mk leaf ops).chunk c).items.modify i f = l ++ f o :: r := by
      intro f; rw [hk, ← hl, List.modify_mid]
    rw [hmod]
    cases rs <;> simp [Item.over]

/-- C69: a deletion takes the item out, and no other, though chunks may be merged. -/
theorem page_delete_item {mk mem leaf ops c i} (hm : MkOk mk)
    (h : RunOk mk (Page.fresh leaf) (ops ++ [.delete c i])) :
    (made mk mem leaf (ops ++ [.delete c i])).items =
      (made mk mem leaf ops).items.eraseIdx ((wanted mk leaf ops).before c + i) := by
  have hs := h.split
  rw [made_items hm h, made_items hm hs.1, wanted_snoc]
  exact Page.delete_items _ _ _ hs.2.1 hs.2.2

/-- C69: splitting a chunk does not change the items. -/
theorem page_split_items {mk mem leaf ops c best} (hm : MkOk mk)
    (h : RunOk mk (Page.fresh leaf) (ops ++ [.split c best])) :
    (made mk mem leaf (ops ++ [.split c best])).items = (made mk mem leaf ops).items := by
  have hs := h.split
  rw [made_items hm h, made_items hm hs.1, wanted_snoc]
  exact Page.split_items _ _ _ _

/-- C69: after a reorganization the items are the given ones, in the given order, though those of the
page itself were moved over each other; or, if they do not fit, the page is unchanged. -/
theorem page_reorg_items {mk mem leaf ops right picks key kflags cut} (hm : MkOk mk)
    (h : RunOk mk (Page.fresh leaf) (ops ++ [.reorg right picks key kflags cut])) :
    (made mk mem leaf (ops ++ [.reorg right picks key kflags cut])).items =
        picks.map (fun p => match p with
          | .old k n => match (made mk mem leaf ops).items[k]? with
            | some it => ⟨it.flag, it.words.take n⟩
            | none => ⟨false, []⟩
          | .new it => it) ∨
    ((made mk mem leaf (ops ++ [.reorg right picks key kflags cut])).chunks = (made mk mem leaf ops).chunks ∧
      blck < dataStart leaf (if right then [] else key) +
        ((picks.map (wanted mk leaf ops).pick).map (·.words.length)).sum + al picks.length) := by
  have hs := h.split
  have hleaf : (wanted mk leaf ops).leaf = leaf := run_leaf ..
  rw [made_items hm h, made_items hm hs.1, (made_rep (mem := mem) hm h).read, (made_rep (mem := mem) hm hs.1).read,
    wanted_snoc]
  rcases Page.reorg_items mk cut (wanted mk leaf ops) right (picks.map (wanted mk leaf ops).pick) (key, kflags) with
    h1 | ⟨h1, h2⟩
  · left
    refine Eq.trans h1 ?_
    apply List.map_congr_left
    intro p _
    cases p <;> rfl
  · right
    refine ⟨congrArg Page.chunks h1, ?_⟩
    rw [hleaf, List.length_map] at h2
    exact h2

/-! ## C70 -/

theorem Rep.chunkMark {s P} (R : Rep s P) (M : P.Marked) (c i : Nat) (hc : c < s.chunksCount)
    (hi : i < (s.fill c).count) (hf : (s.desc c).fixed = true) :
    (s.itemAt { s.fill c with item := i }).flag = true ∨ (P.leaf = false ∧ c = 0 ∧ i = 0) := by
  have e : P.chunks[c]? = Option.some (s.chunkAt c) := by
    rw [← R.read]
    unfold Pg.chunks
    rw [List.getElem?_map, List.getElem?_range hc]
    rfl
  refine M c _ e hf i (s.itemAt { s.fill c with item := i }) ?_
  unfold Pg.chunkAt
  simp only
  rw [List.getElem?_map, List.getElem?_range hi]
  rfl

/-- C70: a chunk is marked only if all its items have the fixed format; the first item of an internal
page, which has no key, does not count. -/
theorem chunk_marks {mk mem leaf ops} (hm : MkOk mk) (h : RunOk mk (Page.fresh leaf) ops)
    (hk : RunMarks mk (Page.fresh leaf) ops) (c i : Nat) (hc : c < (made mk mem leaf ops).chunksCount)
    (hi : i < ((made mk mem leaf ops).fill c).count) (hf : ((made mk mem leaf ops).desc c).fixed = true) :
    ((made mk mem leaf ops).itemAt { (made mk mem leaf ops).fill c with item := i }).flag = true ∨
      (leaf = false ∧ c = 0 ∧ i = 0) := by
  have M : (wanted mk leaf ops).Marked := (Page.Marked.fresh leaf).run h hk
  have := (made_rep (mem := mem) hm h).chunkMark M c i hc hi hf
  rw [show (wanted mk leaf ops).leaf = leaf from run_leaf ..] at this
  exact this

theorem RunOk.append {mk : MkKey} {P : Page} {a b : List Op} : RunOk mk P (a ++ b) ↔ RunOk mk P a ∧ RunOk mk (P.run mk a) b := by
  induction a generalizing P with
  | nil => exact ⟨fun h => ⟨trivial, h⟩, fun h => h.2⟩
  | cons o a ih =>
    constructor
    · intro h
      have := ih.mp h.2
      exact ⟨⟨h.1, this.1⟩, this.2⟩
    · intro h
      exact ⟨h.1.1, ih.mpr ⟨h.1.2, h.2⟩⟩

/-- C70: a reorganization for which there is room sets the marks of chunks right, whatever was done
before (as when trees are built, src/btree/build.c:163, 356). -/
theorem chunk_marks_reorg {mk mem leaf ops right picks key kflags cut ops'} (hm : MkOk mk)
    (h : RunOk mk (Page.fresh leaf) ((ops ++ [.reorg right picks key kflags cut]) ++ ops'))
    (hfit : dataStart leaf (if right then [] else key) +
      ((picks.map (wanted mk leaf ops).pick).map (·.words.length)).sum + al picks.length ≤ blck)
    (hk : RunMarks mk (wanted mk leaf (ops ++ [.reorg right picks key kflags cut])) ops')
    (c i : Nat) (hc : c < (made mk mem leaf ((ops ++ [.reorg right picks key kflags cut]) ++ ops')).chunksCount)
    (hi : i < ((made mk mem leaf ((ops ++ [.reorg right picks key kflags cut]) ++ ops')).fill c).count)
    (hf : ((made mk mem leaf ((ops ++ [.reorg right picks key kflags cut]) ++ ops')).desc c).fixed = true) :
    ((made mk mem leaf ((ops ++ [.reorg right picks key kflags cut]) ++ ops')).itemAt
        { (made mk mem leaf ((ops ++ [.reorg right picks key kflags cut]) ++ ops')).fill c with item := i }).flag = true ∨
      (leaf = false ∧ c = 0 ∧ i = 0) := by
  have hs := RunOk.append.mp h
  have M1 : (wanted mk leaf (ops ++ [.reorg right picks key kflags cut])).Marked := by
    rw [wanted_snoc]
    have hl : (wanted mk leaf ops).leaf = leaf := run_leaf ..
    unfold Page.step Page.reorg
    simp only
    have e1 : (if right then (([], 0) : List Nat × Nat) else (key, kflags)).1 = (if right then [] else key) := by
      cases right <;> rfl
    rw [e1, hl, List.length_map, if_neg (by omega)]
    intro c k hk hf i it hit
    rcases mkChunks_marked _ _ _ _ _ c k hk hf i it hit with h1 | h1
    · exact Or.inl h1
    · exact Or.inr ⟨h1.1, h1.2.1.2, h1.2.2⟩
  have M : (wanted mk leaf ((ops ++ [.reorg right picks key kflags cut]) ++ ops')).Marked := by
    have := M1.run hs.2 hk
    unfold wanted Page.run at this ⊢
    rw [List.foldl_append (l' := ops')]
    exact this
  have := (made_rep (mem := mem) hm h).chunkMark M c i hc hi hf
  rw [show (wanted mk leaf ((ops ++ [.reorg right picks key kflags cut]) ++ ops')).leaf = leaf from run_leaf ..] at this
  exact this

/-- C70: a page is marked only if the keys of all its chunks have the fixed format; the last chunk of
a rightmost page has no key. -/
theorem key_marks {mk mem leaf ops} (hm : MkOk mk) (h : RunOk mk (Page.fresh leaf) ops)
    (hf : (made mk mem leaf ops).hikeysFixed = true) (c : Nat)
    (hc : c < if (made mk mem leaf ops).rightmost then (made mk mem leaf ops).chunksCount - 1
      else (made mk mem leaf ops).chunksCount) :
    ((made mk mem leaf ops).desc c).flags % 2 = 1 := by
  have R := made_rep (mem := mem) hm h
  have K : KeysMarked (made mk mem leaf ops) (wanted mk leaf ops) :=
    KeysMarked.run (Rep.fresh mem leaf) (KeysMarked.fresh mem leaf) hm h
  rw [R.right, R.count] at hc
  have hc' : c < (wanted mk leaf ops).chunks.length := by split at hc <;> omega
  rw [R.flags c hc']
  refine K hf _ ?_
  unfold Page.keyFlags
  have e := chunk_map (wanted mk leaf ops) c hc'
  split
  · next hr =>
    rw [if_pos hr] at hc
    refine List.mem_of_getElem? (i := c) ?_
    rw [List.getElem?_dropLast, List.length_map, if_pos hc]
    exact e
  · exact List.mem_of_getElem? e

theorem ilen_const {L : Nat} {l : List Item} (h : ∀ it ∈ l, it.words.length = L) : ilen l = L * l.length := by
  induction l with
  | nil => rfl
  | cons x l ih =>
    have h1 := h x (List.mem_cons_self ..)
    have h2 := ih fun it hit => h it (List.mem_cons_of_mem _ hit)
    have e : ilen (x :: l) = x.words.length + ilen l := by simp [ilen]
    rw [e, h1, h2, List.length_cons, Nat.mul_add]
    omega

/-- C70: in a marked chunk of an internal page whose size is as the search expects
(src/btree/fastpath.c:399-402), the headers with downlinks are where the search takes them from
(src/btree/fastpath.c:388-397, 431-433, 445, 491-494), if items of the fixed format have 8 bytes of header and
keys of one length `L`. -/
theorem fast_item_address {mk mem ops L} (hm : MkOk mk) (h : RunOk mk (Page.fresh false) ops)
    (hk : RunMarks mk (Page.fresh false) ops)
    (c i : Nat) (hc : c < (made mk mem false ops).chunksCount) (hi : i < ((made mk mem false ops).fill c).count)
    (hf : ((made mk mem false ops).desc c).fixed = true)
    (hL : ∀ j, j < ((made mk mem false ops).fill c).count → (c ≠ 0 ∨ j ≠ 0) →
      ((made mk mem false ops).itemAt { (made mk mem false ops).fill c with item := j }).flag = true →
      ((made mk mem false ops).itemAt { (made mk mem false ops).fill c with item := j }).words.length = 4 + L)
    (hsize : ((made mk mem false ops).fill c).size = al ((made mk mem false ops).fill c).count +
      4 * ((made mk mem false ops).fill c).count +
      L * (if c = 0 then ((made mk mem false ops).fill c).count - 1 else ((made mk mem false ops).fill c).count)) :
    (made mk mem false ops).item { (made mk mem false ops).fill c with item := i } =
      if c = 0 then
        if i = 0 then ((made mk mem false ops).fill c).addr + al ((made mk mem false ops).fill c).count
        else ((made mk mem false ops).fill c).addr + al ((made mk mem false ops).fill c).count + 4 + (4 + L) * (i - 1)
      else ((made mk mem false ops).fill c).addr + al ((made mk mem false ops).fill c).count + (4 + L) * i := by
  have R := made_rep (mem := mem) hm h
  have M : (wanted mk false ops).Marked := (Page.Marked.fresh false).run h hk
  have hwl : (wanted mk false ops).leaf = false := run_leaf ..
  have hc' : c < (wanted mk false ops).chunks.length := by rw [← R.count]; exact hc
  obtain ⟨xs, ys, hs⟩ := chunkSplit hc'
  have f := R.facts hs
  have ff := f.fill
  have fd := f.desc
  rw [hs.len] at ff fd
  have hL' : ∀ j it, ((wanted mk false ops).chunk c).items[j]? = some it → (c ≠ 0 ∨ j ≠ 0) → it.flag = true →
      it.words.length = 4 + L := by
    intro j it hit
    have h1 := R.chunkItems hs
    rw [hs.len] at h1
    have hj : j < ((made mk mem false ops).fill c).count := by
      rw [ff]; exact (List.getElem?_eq_some_iff.mp hit).1
    rw [← h1, List.getElem?_map, List.getElem?_range hj, Option.map_some, Option.some.injEq] at hit
    rw [← hit]
    exact hL j hj
  clear hL
  rw [ff] at hi hsize ⊢
  rw [fd] at hf
  simp only at hi hsize hf ⊢
  have hM := ((marked_mid hs).mp M).2.1 hf
  rw [hwl] at hM
  obtain ⟨l, o, r, he, hl⟩ := chunk_items_split hi
  have fi := (R.item hs he).addr
  rw [hs.len, hl, ff] at fi
  rw [show ({ (⟨c, 0, ((wanted mk false ops).chunk c).items.length, csize ((wanted mk false ops).chunk c),
    (wanted mk false ops).start + dsize xs⟩ : Loc) with item := i } : Loc) = ⟨c, i, ((wanted mk false ops).chunk c).items.length,
    csize ((wanted mk false ops).chunk c), (wanted mk false ops).start + dsize xs⟩ from rfl] at fi
  rw [fi]
  by_cases h0 : c = 0
  · rw [if_pos h0] at hsize ⊢
    by_cases hi0 : i = 0
    · rw [if_pos hi0]
      have : l = [] := List.length_eq_zero_iff.mp (by omega)
      rw [this]
      rfl
    · rw [if_neg hi0]
      cases l with
      | nil => simp at hl; omega
      | cons x l =>
        have hall : ∀ j it, 0 < j → ((wanted mk false ops).chunk c).items[j]? = some it → it.words.length = 4 + L := by
          intro j it hj hit
          rcases hM j it hit with h1 | h1
          · exact hL' j it hit (Or.inr (by omega)) h1
          · omega
        have hrest : ∀ it ∈ l ++ o :: r, it.words.length = 4 + L := by
          intro it hit
          obtain ⟨j, hj, e⟩ := List.mem_iff_getElem.mp hit
          refine hall (j + 1) it (by omega) ?_
          rw [he, List.cons_append, List.getElem?_cons_succ, List.getElem?_eq_getElem hj, e]
        have e1 := ilen_const hrest
        have e2 := ilen_const (L := 4 + L) (l := l) fun it hit => hrest it (by simp [hit])
        have e3 : ilen (x :: l) = x.words.length + ilen l := by simp [ilen]
        have e4 : csize ((wanted mk false ops).chunk c) = al ((wanted mk false ops).chunk c).items.length +
            (x.words.length + ilen (l ++ o :: r)) := by
          unfold csize
          rw [he]
          simp [ilen]
        have e5 : ((wanted mk false ops).chunk c).items.length = (l ++ o :: r).length + 1 := by rw [he]; simp
        rw [e4] at hsize
        have e6 : (4 + L) * (l ++ o :: r).length = 4 * (l ++ o :: r).length + L * (l ++ o :: r).length := Nat.add_mul ..
        have e7 : ((wanted mk false ops).chunk c).items.length - 1 = (l ++ o :: r).length := by omega
        rw [e7] at hsize
        have e8 : i - 1 = l.length := by simp at hl; omega
        rw [e3, e2, e8]
        omega
  · rw [if_neg h0]
    have hall : ∀ it ∈ l, it.words.length = 4 + L := by
      intro it hit
      have hin : it ∈ ((wanted mk false ops).chunk c).items := by rw [he]; simp [hit]
      obtain ⟨j, hj, e⟩ := List.mem_iff_getElem.mp hin
      have hit2 : ((wanted mk false ops).chunk c).items[j]? = some it := by rw [List.getElem?_eq_getElem hj, e]
      rcases hM j it hit2 with h1 | h1
      · exact hL' j it hit2 (Or.inl h0) h1
      · exact absurd h1.2.1 h0
    rw [ilen_const hall, hl]

/-- C70: on a marked page keys are where the search looks for them (src/btree/fastpath.c:534-561), if
keys of the fixed format have one length `L`. -/
theorem fast_key_address {mk mem leaf ops L} (hm : MkOk mk) (h : RunOk mk (Page.fresh leaf) ops)
    (hL : ∀ k ∈ (made mk mem leaf ops).chunks, k.kflags % 2 = 1 → k.key.length = L)
    (hf : (made mk mem leaf ops).hikeysFixed = true) (c : Nat)
    (hc : c < if (made mk mem leaf ops).rightmost then (made mk mem leaf ops).chunksCount - 1
      else (made mk mem leaf ops).chunksCount) :
    2 * ((made mk mem leaf ops).desc c).hloc = 2 * ((made mk mem leaf ops).desc 0).hloc + L * c := by
  have R := made_rep (mem := mem) hm h
  have hodd := fun j hj => key_marks (mem := mem) hm h hf j hj
  rw [R.read] at hL
  have hc' : c < (wanted mk leaf ops).chunks.length := by
    rw [R.count] at hc; split at hc <;> omega
  obtain ⟨xs, ys, hs⟩ := chunkSplit hc'
  have fd := (R.facts hs).desc
  rw [hs.len] at fd
  have hd0 := R.desc0
  rw [← Pg.desc_eq] at hd0
  rw [hd0, fd]
  simp only
  have hk : ksize xs = L * xs.length := by
    have hx : ∀ k ∈ xs, k.key.length = L := by
      intro k hk
      obtain ⟨j, hj, e⟩ := List.mem_iff_getElem.mp hk
      have hmem : k ∈ (wanted mk leaf ops).chunks := by rw [hs.eq]; simp [hk]
      refine hL k hmem ?_
      have h1 := hodd j (by rw [hs.len] at hj; split at hc <;> split <;> omega)
      have hj' : j < (wanted mk leaf ops).chunks.length := by rw [hs.len] at hj; omega
      rw [R.flags j hj'] at h1
      have : (wanted mk leaf ops).chunk j = k := by
        unfold Page.chunk
        rw [hs.eq, List.getD_eq_getElem?_getD, List.getElem?_append_left hj, List.getElem?_eq_getElem hj, e]
        rfl
      rw [this] at h1
      exact h1
    clear fd hs
    induction xs with
    | nil => rfl
    | cons x xs ih =>
      rw [ksize_cons, hx x (List.mem_cons_self ..), ih fun k hk => hx k (List.mem_cons_of_mem _ hk), List.length_cons,
        Nat.mul_add]
      omega
  have hmod : (hdrLen (wanted mk leaf ops).chunks.length + ksize xs) % 2 = 0 := by
    have h1 : hdrLen (wanted mk leaf ops).chunks.length % 4 = 0 := by unfold hdrLen al; omega
    have h2 : ∀ Q : List Chunk, Aligned Q → ksize Q % 4 = 0 := by
      intro Q
      induction Q with
      | nil => intro _; rfl
      | cons x Q ih =>
        intro ha
        have h3 := (ha x (List.mem_cons_self ..)).2.1
        have h4 := ih fun y hy => ha y (List.mem_cons_of_mem _ hy)
        rw [ksize_cons]
        omega
    have := h2 xs (R.facts hs).xok
    omega
  rw [hk, hs.len] at hmod ⊢
  omega

/-! ## Cases -/

/-- Keys of 8 bytes: the first ones of the tuple. -/
def exMk : MkKey := fun w f => ((w ++ [0, 0, 0, 0]).take 4, if f then 1 else 0)

theorem exMk_ok : MkOk exMk := by
  intro w f
  refine ⟨?_, by cases f <;> simp [exMk]⟩
  have : (exMk w f).1.length = 4 := by simp [exMk]
  rw [this]

theorem exMk_four (w f) : 4 ≤ (exMk w f).1.length := by simp [exMk]

instance (it : Item) : Decidable it.ok := inferInstanceAs (Decidable (_ ∧ _))

/-- An item of 16 bytes. -/
def exItem (f : Bool) (v : Nat) : Item := ⟨f, [v, v + 1, v + 2, v + 3, 7, 7, 7, 7]⟩

/-- A leaf page: three insertions, a split of the chunk, an insertion to its right part, the deletion of
the only item of the left part (so the chunks are merged), a replacement by a longer tuple, and a
reorganization that drops an item, cuts one and adds one. -/
def exOps : List Op :=
  [.insert 0 0 (exItem true 10) true, .insert 0 1 (exItem true 30) true, .insert 0 1 (exItem true 20) true,
   .split 0 1, .insert 1 1 (exItem false 25) true, .delete 0 0,
   .replace 0 1 ⟨true, [1, 2, 3, 4, 5, 6, 7, 8, 9, 10, 11, 12]⟩,
   .reorg false [.old 0 8, .new (exItem false 26), .old 2 4] [9, 9, 9, 9] 1 (fun i => i = 1)]

set_option maxRecDepth 100000 in
theorem exOps_ok : RunOk exMk (Page.fresh true) exOps := by
  refine ⟨⟨by decide, by decide, by decide⟩, ⟨by decide, by decide, by decide⟩, ⟨by decide, by decide, by decide⟩,
    ⟨by decide, fun _ _ => exMk_four ..⟩, ⟨by decide, by decide, by decide⟩, ⟨by decide, by decide⟩,
    ⟨by decide, by decide, by decide⟩, ⟨?_, fun _ _ => exMk_four .., fun _ => by decide⟩, trivial⟩
  refine ⟨by decide, by decide, by decide, ⟨exItem true 20, by decide +kernel, by decide⟩, by decide, by decide, by decide,
    by decide, ⟨exItem true 30, by decide +kernel, by decide⟩, trivial⟩

/-- What is read at the end. -/
theorem exOps_case : (made exMk (fun _ => 999) true exOps).chunks =
      [⟨[exItem true 20], true, [26, 27, 28, 29], 0⟩,
       ⟨[exItem false 26, ⟨true, [30, 31, 32, 33]⟩], false, [9, 9, 9, 9], 1⟩] ∧
    (made exMk (fun _ => 999) true (exOps.take 4)).chunks =
      [⟨[exItem true 10], true, [20, 21, 22, 23], 1⟩, ⟨[exItem true 20, exItem true 30], true, [], 0⟩] ∧
    (made exMk (fun _ => 999) true (exOps.take 6)).chunks =
      [⟨[exItem true 20, exItem false 25, exItem true 30], false, [], 0⟩] ∧
    (made exMk (fun _ => 999) true (exOps.take 4)).hikeysFixed = true ∧
    (made exMk (fun _ => 999) true exOps).hikeysFixed = false := by
  refine ⟨by decide +kernel, by decide +kernel, by decide +kernel, by decide +kernel, by decide +kernel⟩

/-- An item of an internal page: a downlink and a key of 8 bytes. -/
def exDown (f : Bool) (v : Nat) : Item := ⟨f, [v, 0, 0, 0, v, v, v, v]⟩

/-- An internal page of two chunks; the first item has no key. -/
def exInner : List Op :=
  [.insert 0 0 (exDown true 1) true, .insert 0 1 (exDown true 2) true, .insert 0 2 (exDown true 3) true,
   .insert 0 3 (exDown true 4) true, .cutFirst, .reorg false [.old 0 4, .old 1 8, .old 2 8, .old 3 8] [5, 5, 5, 5] 1
    (fun i => i = 2)]

set_option maxRecDepth 100000 in
theorem exInner_ok : RunOk exMk (Page.fresh false) exInner ∧ RunMarks exMk (Page.fresh false) exInner := by
  refine ⟨⟨⟨by decide, by decide, by decide⟩, ⟨by decide, by decide, by decide⟩, ⟨by decide, by decide, by decide⟩,
    ⟨by decide, by decide, by decide⟩, (by decide : 0 < ((Page.fresh false).run exMk (exInner.take 4)|>.chunk 0).items.length),
    ⟨?_, fun _ _ => exMk_four .., fun _ => by decide⟩, trivial⟩,
    ⟨by decide, by decide⟩, ⟨by decide, by decide⟩, ⟨by decide, by decide⟩, ⟨by decide, by decide⟩, trivial, trivial, trivial⟩
  refine ⟨by decide, by decide, by decide, ⟨⟨true, [1, 0, 0, 0]⟩, by decide +kernel, by decide⟩, by decide, by decide, by decide,
    ⟨exDown true 2, by decide +kernel, by decide⟩, by decide, by decide, by decide,
    ⟨exDown true 3, by decide +kernel, by decide⟩, by decide, by decide, by decide,
    ⟨exDown true 4, by decide +kernel, by decide⟩, trivial⟩

/-- The hypotheses of `fast_item_address` and `fast_key_address` are met by both chunks of that page. -/
theorem exInner_case :
    (made exMk (fun _ => 999) false exInner).chunksCount = 2 ∧
    (made exMk (fun _ => 999) false exInner).hikeysFixed = true ∧
    (made exMk (fun _ => 999) false exInner).items.map (·.words.length) = [4, 4 + 4, 4 + 4, 4 + 4] ∧
    (∀ k ∈ (made exMk (fun _ => 999) false exInner).chunks, k.kflags % 2 = 1 → k.key.length = 4) ∧
    ((made exMk (fun _ => 999) false exInner).desc 0).fixed = true ∧
    ((made exMk (fun _ => 999) false exInner).desc 1).fixed = true ∧
    ((made exMk (fun _ => 999) false exInner).fill 0).size = al 2 + 4 * 2 + 4 * 1 ∧
    ((made exMk (fun _ => 999) false exInner).fill 1).size = al 2 + 4 * 2 + 4 * 2 := by
  refine ⟨by decide +kernel, by decide +kernel, by decide +kernel, by decide +kernel, by decide +kernel, by decide +kernel,
    by decide +kernel, by decide +kernel⟩

/-- A leaf page: a tuple not of the fixed format is replaced by one of the fixed format, the page is
reorganized, and the replacement is rolled back. -/
def exBack : List Op :=
  [.insert 0 0 (exItem false 10) true, .replace 0 0 (exItem true 20), .reorg true [.old 0 8] [] 0 (fun _ => false),
   .rollback 0 0 (exItem false 10) true]

set_option maxRecDepth 100000 in
theorem exBack_ok : RunOk exMk (Page.fresh true) exBack := by
  refine ⟨⟨by decide, by decide, by decide⟩, ⟨by decide, by decide, by decide⟩,
    ⟨⟨by decide, by decide, by decide, ⟨exItem true 20, by decide +kernel, by decide⟩, trivial⟩,
      fun _ _ => exMk_four .., fun h => absurd h (by decide)⟩,
    ⟨by decide, by decide, exItem true 20, by decide +kernel, by decide⟩, trivial⟩

/-- C70 fails for leaf pages without the restriction on rollbacks: page_item_rollback
(src/btree/undo.c:273) sets the flags of the item but does not clear the mark of its chunk, which was set
by the reorganization.  The assertion at src/btree/page_state.c:1452 does not hold then.  (Searches use
marks of internal pages only.) -/
theorem chunk_marks_rollback_violated :
    ((made exMk (fun _ => 999) true exBack).desc 0).fixed = true ∧
    ((made exMk (fun _ => 999) true exBack).itemAt ((made exMk (fun _ => 999) true exBack).fill 0)).flag = false ∧
    0 < ((made exMk (fun _ => 999) true exBack).fill 0).count := by
  refine ⟨by decide +kernel, by decide +kernel, by decide +kernel⟩

end Verif.PageChunks
