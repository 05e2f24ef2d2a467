import Verif.PageChunks.Rep

/-! # Bytes of B-tree pages: reading -/

namespace Verif.PageChunks

theorem itemOff_word {off : Nat} (f : Bool) (h : off < 8192) : itemOff (word off f) = off := by
  unfold itemOff word
  cases f <;> simp <;> omega

theorem itemFlags_word {off : Nat} (f : Bool) (h : off < 8192) : itemFlags (word off f) = if f then 1 else 0 := by
  unfold itemFlags word
  cases f <;> simp <;> omega

theorem ChunkAt.entry {m a l it r} (h : ChunkAt m a (l ++ it :: r)) :
    m (a + l.length) = word (al (l ++ it :: r).length + ilen l) it.flag := by
  have := h.1
  rw [iarr_append, At.append, iarr_length, iarr, At.cons] at this
  exact this.2.1

theorem ChunkAt.item {m a l it r} (h : ChunkAt m a (l ++ it :: r)) :
    At m (a + al (l ++ it :: r).length + ilen l) it.words := by
  have := h.2
  rw [idata_append, At.append, idata_cons, At.append, idata_length] at this
  exact this.2.1

/-- What the code finds at an item. -/
structure ItemFacts (s : Pg) (l : Loc) (a : Nat) (it : Item) : Prop where
  addr : s.item l = a
  size : s.itemSize l = it.words.length
  mem : At s.mem a it.words
  flag : itemFlags (s.mem (l.addr + l.item)) = if it.flag then 1 else 0

theorem Rep.item {s P c xs k ys l it r} (R : Rep s P) (h : ChunkSplit P c xs k ys)
    (hk : k.items = l ++ it :: r) :
    ItemFacts s { s.fill xs.length with item := l.length }
      (P.start + dsize xs + al k.items.length + ilen l) it := by
  have f := R.facts h
  have hc := f.chunk
  have hf := f.fit
  have hcs := csize_eq k
  have hin : ilen k.items = ilen l + (it.words.length + ilen r) := by rw [hk, ilen_append, ilen_cons]
  rw [hk] at hc
  have he := hc.entry
  have hi := hc.item
  rw [← hk] at he hi
  have e1 : s.item { s.fill xs.length with item := l.length } =
      P.start + dsize xs + al k.items.length + ilen l := by
    unfold Pg.item
    rw [f.fill]
    simp only
    rw [he, itemOff_word _ (by omega)]
    omega
  refine ⟨e1, ?_, hi, ?_⟩
  · unfold Pg.itemSize
    rw [e1, f.fill]
    simp only
    by_cases hr : l.length + 1 < k.items.length
    · rw [if_pos hr]
      obtain ⟨it2, r2, hr2⟩ : ∃ x y, r = x :: y := by
        cases r with
        | nil => rw [hk] at hr; simp at hr
        | cons x y => exact ⟨x, y, rfl⟩
      have hc2 := f.chunk
      have hk2 : k.items = (l ++ [it]) ++ it2 :: r2 := by rw [hk, hr2]; simp
      rw [hk2] at hc2
      have he2 := hc2.entry
      rw [← hk2] at he2
      rw [List.length_append, List.length_singleton, ← Nat.add_assoc] at he2
      have hil : ilen (l ++ [it]) = ilen l + it.words.length := by rw [ilen_append]; simp [ilen]
      rw [he2, he, itemOff_word _ (by omega), itemOff_word _ (by omega), hil]
      omega
    · rw [if_neg hr]
      have hr0 : r = [] := by
        rw [hk] at hr
        cases r with
        | nil => rfl
        | cons x y => simp at hr
      have hil : ilen r = 0 := by rw [hr0]; rfl
      by_cases hy : xs.length + 1 < s.chunksCount
      · rw [if_pos hy]
        cases ys with
        | nil => have := f.cnt; simp at this; omega
        | cons d ys =>
          have := f.dys.head
          rw [← Pg.desc_eq] at this
          rw [this]
          have := f.amod
          have := csize_mod f.kok.1
          simp only
          omega
      · rw [if_neg hy]
        have hys : ys = [] := by
          cases ys with
          | nil => rfl
          | cons d ys => have := f.cnt; simp at this; omega
        have hd := f.dend
        rw [hys] at hd
        have hd' : dsize ([] : List Chunk) = 0 := rfl
        omega
  · rw [f.fill]
    simp only
    rw [he, itemFlags_word _ (by omega)]

theorem Rep.itemAt {s P c xs k ys l it r} (R : Rep s P) (h : ChunkSplit P c xs k ys)
    (hk : k.items = l ++ it :: r) : s.itemAt { s.fill xs.length with item := l.length } = it := by
  have f := R.item h hk
  unfold Pg.itemAt
  rw [f.flag, f.addr, f.size, Pg.read_at f.mem rfl]
  obtain ⟨fl, w⟩ := it
  cases fl <;> rfl

theorem list_split {α} {l : List α} {i : Nat} {x : α} (h : l[i]? = some x) :
    ∃ a b, l = a ++ x :: b ∧ a.length = i := by
  obtain ⟨hi, hx⟩ := List.getElem?_eq_some_iff.mp h
  exact ⟨l.take i, l.drop (i + 1), by rw [← hx]; simp, by simp; omega⟩

theorem Rep.chunkItems {s P c xs k ys} (R : Rep s P) (h : ChunkSplit P c xs k ys) :
    ((List.range (s.fill xs.length).count).map fun i => s.itemAt { s.fill xs.length with item := i }) =
      k.items := by
  have f := R.facts h
  apply List.ext_getElem?
  intro i
  rw [List.getElem?_map]
  by_cases hi : i < k.items.length
  · obtain ⟨a, b, hab, hl⟩ := list_split (List.getElem?_eq_getElem hi)
    have := R.itemAt h hab
    rw [hl] at this
    have hn : (s.fill xs.length).count = k.items.length := by rw [f.fill]
    rw [hn, List.getElem?_range hi, List.getElem?_eq_getElem hi]
    simp only [Option.map_some, this]
  · have hn : (s.fill xs.length).count = k.items.length := by rw [f.fill]
    rw [List.getElem?_eq_none (l := k.items) (by omega),
      List.getElem?_eq_none (by rw [List.length_range]; omega)]
    rfl

theorem Rep.keyAt {s P c xs k ys} (R : Rep s P) (h : ChunkSplit P c xs k ys) :
    s.keyAt xs.length = (k.key, k.kflags) := by
  have f := R.facts h
  have hk := R.keys
  obtain ⟨hl, hhl⟩ : ∃ x, x = hdrLen P.chunks.length := ⟨_, rfl⟩
  have e := f.desc
  have hl4 : hl % 4 = 0 := by rw [hhl]; exact hdrLen_mod _
  have hx4 := f.xok.ksize
  rw [← hhl] at hk e
  rw [h.eq, kdata_append, kdata_cons, At.append, At.append, kdata_length] at hk
  have hkk := f.kok.2.1
  have key : (if xs.length + 1 < s.chunksCount then 2 * (s.desc (xs.length + 1)).hloc else s.hikeysEnd) =
      hl + ksize xs + k.key.length := by
    cases ys with
    | nil =>
      have := f.cnt
      simp only [List.length_nil] at this
      have hke := R.kend
      rw [← hhl, h.eq, ksize_append, ksize_cons] at hke
      have hz : ksize ([] : List Chunk) = 0 := rfl
      rw [if_neg (by omega)]
      omega
    | cons d ys =>
      have := f.cnt
      simp only [List.length_cons] at this
      have hd := f.dys.head
      rw [← Pg.desc_eq, ← hhl] at hd
      rw [if_pos (by omega), hd]
      simp only
      omega
  unfold Pg.keyAt
  simp only
  rw [key, e]
  have e2 : 2 * ((hl + ksize xs) / 2) = hl + ksize xs := by omega
  simp only [e2]
  rw [Pg.read_at hk.2.1 (by omega)]

/-- A reader sees the contents. -/
theorem Rep.read {s P} (R : Rep s P) : s.chunks = P.chunks := by
  unfold Pg.chunks
  apply List.ext_getElem?
  intro c
  rw [List.getElem?_map]
  by_cases hc : c < P.chunks.length
  · obtain ⟨xs, ys, h⟩ := chunkSplit hc
    have hcc : s.chunkAt c = P.chunk c := by
      unfold Pg.chunkAt
      have h1 := R.chunkItems h
      have h2 := R.keyAt h
      have h3 := (R.facts h).desc
      rw [h.len] at h1 h2 h3
      rw [h1, h2, h3]
    rw [R.count, List.getElem?_range hc, Option.map_some, hcc]
    unfold Page.chunk
    rw [List.getD_eq_getElem?_getD, List.getElem?_eq_getElem hc]
    rfl
  · rw [List.getElem?_eq_none (by rw [List.length_range, R.count]; omega), List.getElem?_eq_none (by omega)]
    rfl

theorem Rep.readItems {s P} (R : Rep s P) : s.items = P.items := by
  unfold Pg.items Pg.locs Page.items
  rw [← R.read]
  unfold Pg.chunks
  rw [List.map_flatMap, List.flatMap_map]
  congr 1
  funext c
  unfold Pg.chunkAt
  rw [List.map_map]
  rfl

end Verif.PageChunks
