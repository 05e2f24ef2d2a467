import Verif.PageChunks.Resize

/-! # Bytes of B-tree pages: new contents for an item -/

namespace Verif.PageChunks

theorem Rep.of {s s' P P'} (R : Rep s P) (h1 : s' = s) (h2 : P' = P) : Rep s' P' := by rw [h1, h2]; exact R

/-- A change inside of a chunk. -/
theorem Rep.inplace {s P c xs k ys its m'} (R : Rep s P) (h : ChunkSplit P c xs k ys)
    (hn : its.length = k.items.length) (hs : ilen its = ilen k.items) (hok : ∀ it ∈ its, it.ok)
    (out : ∀ x, (x < P.start + dsize xs ∨ P.start + dsize xs + csize k ≤ x) → m' x = s.mem x)
    (hch : ChunkAt m' (P.start + dsize xs) its) :
    Rep { s with mem := m' } { P with chunks := xs ++ { k with items := its } :: ys } := by
  have f := R.facts h
  have hdo : descOff = 28 := rfl
  have hhl := hdrLen_le P.chunks.length
  have hlen : P.chunks.length = xs.length + 1 + ys.length := by rw [h.eq]; simp; omega
  have hc := h.len
  have hkf := R.kfit
  have hcs : csize { k with items := its } = csize k := by
    rw [csize_eq, csize_eq]
    simp only
    rw [hn, hs]
  have hd : ∀ j, j < P.chunks.length → mdesc m' j = mdesc s.mem j := fun j hj =>
    mdesc_congr fun x h1 h2 => out x (by omega)
  refine R.update h R.fine rfl rfl rfl rfl ?_ ?_ (by have := R.fit; have := R.dend; simp only; omega) rfl rfl
    hok (fun x h1 h2 => out x (by omega)) ?_ ?_ ?_ hch ?_
  · simp only
    omega
  · rw [hcs]
  · intro j hj
    exact hd j (by omega)
  · simp only
    rw [hd c (by omega)]
    have hd := f.desc
    rw [Pg.desc_eq, hc] at hd
    rw [hd]
  · intro j p o q fx fl h1 h2 h3 h4 h5 h6 h7 h8 h9 h10 h11 hd'
    simp only
    rw [hd j (by omega), hd', hcs, hn]
    simp
  · intro i hi
    rw [hcs]
    exact out _ (by omega)

/-- Copying to an item. -/
theorem Rep.copy {s P c xs k ys l o r} {w : List Nat} (R : Rep s P) (h : ChunkSplit P c xs k ys)
    (hk : k.items = l ++ o :: r) (hw : w.length ≤ o.words.length) :
    Rep (s.copyIn (s.item { s.fill xs.length with item := l.length }) w)
      { P with chunks := xs ++ { k with items := l ++ ⟨o.flag, w ++ o.words.drop w.length⟩ :: r } :: ys } := by
  have f := R.facts h
  have fi := R.item h hk
  have hil : ilen k.items = ilen l + (o.words.length + ilen r) := by rw [hk, ilen_append, ilen_cons]
  have hcs := csize_eq k
  have hfx := f.fit
  have hl1 := limit_ge P.leaf
  have hl2 := R.slim
  have hdo : descOff = 28 := rfl
  have hbl : blck = 4096 := rfl
  have hn : k.items.length = l.length + 1 + r.length := by rw [hk]; simp; omega
  have hal := al_le k.items.length
  have hwl : (w ++ o.words.drop w.length).length = o.words.length := by simp; omega
  rw [fi.addr, Pg.copyIn_eq _ _ _ (by omega)]
  refine R.inplace h ?_ ?_ ?_ ?_ ?_
  · simp [hk]
  · rw [hk, ilen_append, ilen_append, ilen_cons, ilen_cons, hwl]
  · intro x hx
    simp only [List.mem_append, List.mem_cons] at hx
    rcases hx with hx | hx | hx
    · exact f.kok.1 x (by rw [hk]; simp [hx])
    · have := f.kok.1 o (by rw [hk]; simp)
      rw [hx]
      unfold Item.ok at this ⊢
      simp only
      rw [hwl]
      exact this
    · exact f.kok.1 x (by rw [hk]; simp [hx])
  · intro x hx
    exact mCopy_out (by omega)
  · have hch := f.chunk
    unfold ChunkAt at hch ⊢
    obtain ⟨A, hA⟩ : ∃ A, A = al k.items.length := ⟨_, rfl⟩
    have hA' : al (l ++ (⟨o.flag, w ++ o.words.drop w.length⟩ : Item) :: r).length = A := by
      rw [hA, hk]; simp
    rw [hA']
    rw [← hA] at hch hal ⊢
    have e : iarr A (l ++ ⟨o.flag, w ++ o.words.drop w.length⟩ :: r) = iarr A k.items := by
      rw [hk, iarr_append, iarr_append, iarr, iarr, hwl]
    rw [e]
    refine ⟨hch.1.same fun x h1 h2 => mCopy_out (Or.inl ?_), ?_⟩
    · rw [iarr_length] at h2
      omega
    · have h2 := hch.2
      rw [hk, idata_append, idata_cons, At.append, At.append, idata_length] at h2
      rw [idata_append, idata_cons, At.append, At.append, idata_length, hwl]
      obtain ⟨g1, g2, g3⟩ := h2
      refine ⟨g1.same fun x h1 h2 => mCopy_out (Or.inl ?_), ?_, g3.same fun x h1 h2 => mCopy_out (Or.inr ?_)⟩
      · rw [idata_length] at h2; omega
      · rw [At.append]
        refine ⟨mCopy_at _ _ _, ?_⟩
        have : o.words = o.words.take w.length ++ o.words.drop w.length := by simp
        rw [this, At.append, List.length_take, Nat.min_eq_left hw] at g2
        exact g2.2.same fun x h1 h2 => mCopy_out (Or.inr (by omega))
      · omega

/-- Setting the flag of an item. -/
theorem Rep.setFlag {s P c xs k ys l o r} (R : Rep s P) (h : ChunkSplit P c xs k ys)
    (hk : k.items = l ++ o :: r) (b : Bool) :
    Rep (s.put (P.start + dsize xs + l.length) (itemSet (s.mem (P.start + dsize xs + l.length)) b))
      { P with chunks := xs ++ { k with items := l ++ ⟨b, o.words⟩ :: r } :: ys } := by
  have f := R.facts h
  have hil : ilen k.items = ilen l + (o.words.length + ilen r) := by rw [hk, ilen_append, ilen_cons]
  have hcs := csize_eq k
  have hfx := f.fit
  have hl1 := limit_ge P.leaf
  have hl2 := R.slim
  have hdo : descOff = 28 := rfl
  have hbl : blck = 4096 := rfl
  have hn : k.items.length = l.length + 1 + r.length := by rw [hk]; simp; omega
  have hal := al_le k.items.length
  have hch := f.chunk
  have he := f.chunk
  rw [hk] at he
  have he := he.entry
  rw [← hk] at he
  rw [he, itemSet_word (by omega), Pg.put_eq _ _ _ (by omega)]
  refine R.inplace h ?_ ?_ ?_ ?_ ?_
  · simp [hk]
  · rw [hk, ilen_append, ilen_append, ilen_cons, ilen_cons]
  · intro x hx
    simp only [List.mem_append, List.mem_cons] at hx
    rcases hx with hx | hx | hx
    · exact f.kok.1 x (by rw [hk]; simp [hx])
    · have := f.kok.1 o (by rw [hk]; simp)
      rw [hx]
      exact this
    · exact f.kok.1 x (by rw [hk]; simp [hx])
  · intro x hx
    exact mPut_ne (by omega)
  · unfold ChunkAt at hch ⊢
    obtain ⟨A, hA⟩ : ∃ A, A = al k.items.length := ⟨_, rfl⟩
    have hA' : al (l ++ (⟨b, o.words⟩ : Item) :: r).length = A := by
      rw [hA, hk]; simp
    rw [hA']
    rw [← hA] at hch hal ⊢
    have e : idata (l ++ ⟨b, o.words⟩ :: r) = idata k.items := by
      rw [hk, idata_append, idata_append, idata_cons, idata_cons]
    rw [e]
    refine ⟨?_, hch.2.same fun x h1 h2 => mPut_ne (by omega)⟩
    have h1 := hch.1
    rw [hk, iarr_append, At.append, iarr, At.cons, iarr_length] at h1
    rw [iarr_append, At.append, iarr, At.cons, iarr_length]
    obtain ⟨g1, g2, g3⟩ := h1
    refine ⟨g1.same fun x h1 h2 => mPut_ne ?_, mPut_self, g3.same fun x h1 h2 => mPut_ne ?_⟩
    · rw [iarr_length] at h2; omega
    · omega

/-- The chunk as found after a change. -/
theorem Rep.fill_after {s P c xs k ys s' k'} (R : Rep s P) (h : ChunkSplit P c xs k ys)
    (R' : Rep s' { P with chunks := xs ++ k' :: ys }) (i : Nat) (e : k'.items.length = k.items.length) :
    s'.item { s.fill xs.length with item := i } = s'.item { s'.fill xs.length with item := i } := by
  have f := R.facts h
  have f' := R'.facts (ChunkSplit.self P xs k' ys)
  rw [f.fill, f'.fill]
  simp only [Pg.item]

/-- Writing to an item. -/
theorem Rep.write {s P c xs k ys l o r} {it : Item} (R : Rep s P) (h : ChunkSplit P c xs k ys)
    (hk : k.items = l ++ o :: r) (hw : it.words.length ≤ o.words.length) (L : Loc)
    (hL : L.addr = P.start + dsize xs) (hi : L.item = l.length) :
    Rep (s.writeItem L it.words it.flag)
      { P with chunks := xs ++ { k with items := l ++ o.over it :: r } :: ys } := by
  have f := R.facts h
  have R1 := R.copy h hk hw
  have R2 := R1.setFlag (ChunkSplit.self P xs _ ys) rfl it.flag
  have e : s.item L = s.item { s.fill xs.length with item := l.length } := by
    rw [f.fill]
    simp only [Pg.item, hL, hi]
  unfold Pg.writeItem
  rw [e, hL, hi]
  exact R2

theorem insertIdx_mid {α} (l r : List α) (x : α) : (l ++ r).insertIdx l.length x = l ++ x :: r := by
  induction l with
  | nil => simp
  | cons a l ih => simp [ih]

theorem chunk_items_split {P : Page} {c i : Nat} (h : i < (P.chunk c).items.length) :
    ∃ l o r, (P.chunk c).items = l ++ o :: r ∧ l.length = i := by
  obtain ⟨l, r, h1, h2⟩ := list_split (List.getElem?_eq_getElem h)
  exact ⟨l, _, r, h1, h2⟩

theorem ChunkSplit.upd_eq {P : Page} {c xs k ys} (h : ChunkSplit P c xs k ys) (f : Chunk → Chunk) :
    P.upd c f = { P with chunks := xs ++ f k :: ys } := by
  unfold Page.upd
  rw [h.eq, ← h.len, List.modify_mid]

theorem Rep.room {s P} (R : Rep s P) : P.room = blck - s.dataSize := by
  unfold Page.room
  rw [R.dend]

theorem Rep.doInsert {s P c i it clear} (R : Rep s P) (hc : c < P.chunks.length)
    (hi : i ≤ (P.chunk c).items.length) (hit : it.ok) :
    Rep (s.doInsert c i it clear) (P.insert c i it clear) := by
  obtain ⟨xs, ys, h⟩ := chunkSplit hc
  have f := R.facts h
  have hlen := h.len
  have hal : al it.words.length = it.words.length := al_of_mod hit.1
  have hbl : blck = 4096 := rfl
  have hfit := R.fit
  have hde := R.dend
  unfold Pg.doInsert Page.insert
  simp only
  rw [R.room, hal]
  have f0 : s.fill c = ⟨c, 0, (P.chunk c).items.length, csize (P.chunk c), P.start + dsize xs⟩ := by
    have := f.fill
    rw [hlen] at this
    exact this
  rw [f0]
  simp only
  by_cases hr : al ((P.chunk c).items.length + 1) - al (P.chunk c).items.length + it.words.length ≤ blck - s.dataSize
  · rw [if_pos hr, if_pos hr]
    have hk : (P.chunk c).items = (P.chunk c).items.take i ++ (P.chunk c).items.drop i := by simp
    have hl : ((P.chunk c).items.take i).length = i := by simp; omega
    have R1 := R.insert h hk hit (by rw [hbl] at hr; omega)
    rw [hl, hlen, f0] at R1
    simp only at R1
    have hins : (P.chunk c).items.insertIdx i it = (P.chunk c).items.take i ++ it :: (P.chunk c).items.drop i := by
      have := insertIdx_mid ((P.chunk c).items.take i) ((P.chunk c).items.drop i) it
      rw [hl, ← hk] at this
      exact this
    rw [h.upd_eq, hins]
    cases clear with
    | true =>
      have R2 := R1.clearFixed (ChunkSplit.self P xs _ ys) ⟨c, i, (P.chunk c).items.length, csize (P.chunk c), P.start + dsize xs⟩
        hlen.symm it.flag
      simp only [if_true, Bool.not_true, Bool.or_false]
      refine R2.of rfl ?_
      rfl
    | false =>
      simp only [Bool.false_eq_true, if_false, Bool.not_false, Bool.or_true, Bool.and_true]
      refine R1.of rfl ?_
      rfl
  · rw [if_neg hr, if_neg hr]
    exact R

theorem words_of_getElem {w o : List Nat} (h : w.length = o.length) (e : ∀ i, i < w.length → w[i]? = o[i]?) :
    w = o := by
  apply List.ext_getElem? 
  intro i
  by_cases hi : i < w.length
  · exact e i hi
  · rw [List.getElem?_eq_none (by omega), List.getElem?_eq_none (by omega)]

theorem Rep.doReplace {s P c i it} (R : Rep s P) (hc : c < P.chunks.length)
    (hi : i < (P.chunk c).items.length) (hit : it.ok) :
    Rep (s.doReplace c i it) (P.replace c i it) := by
  obtain ⟨xs, ys, h⟩ := chunkSplit hc
  obtain ⟨l, o, r, hk, hl⟩ := chunk_items_split hi
  have f := R.facts h
  have fi := R.item h hk
  have hlen := h.len
  have hbl : blck = 4096 := rfl
  have hfit := R.fit
  have hde := R.dend
  have hget : (P.chunk c).items.getD i it = o := by
    rw [hk, ← hl]
    simp
  have hmod (g : Item → Item) : (P.chunk c).items.modify i g = l ++ g o :: r := by
    rw [hk, ← hl, List.modify_mid]
  rw [hl, hlen] at fi
  unfold Pg.doReplace Page.replace
  simp only
  rw [R.room, hget, fi.size]
  by_cases hr : it.words.length - o.words.length ≤ blck - s.dataSize
  · rw [if_pos hr, if_pos hr, h.upd_eq, hmod]
    have hLc : ({ s.fill c with item := i } : Loc).chunk = xs.length := by rw [← hlen, f.fill]
    have hLa : ({ s.fill c with item := i } : Loc).addr = P.start + dsize xs := by rw [← hlen, f.fill]
    by_cases hg : o.words.length < it.words.length
    · rw [if_pos hg]
      obtain ⟨w, hw1, hw2, R1⟩ := R.resize h hk hit.1 hit.2 (by rw [hbl] at hr; omega)
      rw [hl, hlen] at R1
      have R2 := R1.write (it := it) (ChunkSplit.self P xs _ ys) rfl (by simp only; omega) { s.fill c with item := i }
        hLa hl.symm
      have R3 := R2.clearFixed (ChunkSplit.self P xs _ ys) { s.fill c with item := i } hLc it.flag
      have e1 : Item.over ⟨o.flag, w⟩ it = o.over it := by
        unfold Item.over
        simp only
        rw [List.drop_eq_nil_of_le (by omega), List.drop_eq_nil_of_le (by omega)]
      rw [e1] at R3
      exact R3
    · rw [if_neg hg]
      have R2 := R.write (it := it) h hk (by omega) { s.fill c with item := i } hLa hl.symm
      exact R2.clearFixed (ChunkSplit.self P xs _ ys) { s.fill c with item := i } hLc it.flag
  · rw [if_neg hr, if_neg hr]
    exact R

theorem Rep.doRollback {s P c i it rs} {o : Item} (R : Rep s P) (hc : c < P.chunks.length) (hit : it.ok)
    (hi : (P.chunk c).items[i]? = Option.some o) (ho : it.words.length ≤ o.words.length) :
    Rep (s.doRollback c i it rs) (P.rollback c i it rs) := by
  obtain ⟨xs, ys, h⟩ := chunkSplit hc
  obtain ⟨l, r, hk, hl⟩ := list_split hi
  have f := R.facts h
  have hlen := h.len
  have hbl : blck = 4096 := rfl
  have hfit := R.fit
  have hde := R.dend
  have hmod (g : Item → Item) : (P.chunk c).items.modify i g = l ++ g o :: r := by
    rw [hk, ← hl, List.modify_mid]
  have hLa : ({ s.fill c with item := i } : Loc).addr = P.start + dsize xs := by rw [← hlen, f.fill]
  have hLa' : (s.fill c).addr = P.start + dsize xs := hLa
  have R1 := R.copy (w := it.words) h hk ho
  have hdd : (s.copyIn (s.item { s.fill c with item := i }) it.words).dataSize = s.dataSize := rfl
  rw [hl, hlen] at R1
  obtain ⟨s1, hs1⟩ : ∃ x, x = s.copyIn (s.item { s.fill c with item := i }) it.words := ⟨_, rfl⟩
  rw [← hs1] at R1 hdd
  unfold Pg.doRollback Page.rollback
  simp only at hs1 ⊢
  rw [h.upd_eq, hmod, ← hs1]
  cases rs with
  | false =>
    simp only [Bool.false_eq_true, if_false]
    have R2 := R1.setFlag (ChunkSplit.self P xs _ ys) rfl it.flag
    rw [hl] at R2
    rw [hLa']
    exact R2
  | true =>
    simp only [if_true]
    have hwl : (it.words ++ o.words.drop it.words.length).length = o.words.length := by simp; omega
    obtain ⟨w, hw1, hw2, R2⟩ := R1.resize (ChunkSplit.self P xs _ ys) rfl hit.1 hit.2
      (by simp only; rw [hwl]; omega)
    have hf : ({ s1.fill xs.length with item := l.length } : Loc) = { s.fill c with item := i } := by
      have f1 := R1.facts (ChunkSplit.self P xs _ ys)
      have f0 : s.fill c = ⟨c, 0, (P.chunk c).items.length, csize (P.chunk c), P.start + dsize xs⟩ := by
        have := f.fill
        rw [hlen] at this
        exact this
      rw [f1.fill, f0, hl, hlen]
      simp only [csize_eq, Loc.mk.injEq, true_and, and_true]
      have hll : (l ++ (⟨o.flag, it.words ++ o.words.drop it.words.length⟩ : Item) :: r).length =
          (P.chunk c).items.length := by rw [hk]; simp
      have hll2 : ilen (l ++ (⟨o.flag, it.words ++ o.words.drop it.words.length⟩ : Item) :: r) =
          ilen (P.chunk c).items := by
        rw [hk, ilen_append, ilen_append, ilen_cons, ilen_cons, hwl]
      rw [hll, hll2]
      exact ⟨rfl, rfl⟩
    rw [hf] at R2
    have R3 := R2.setFlag (ChunkSplit.self P xs _ ys) rfl it.flag
    rw [hl] at R3
    have e : w = it.words := by
      refine words_of_getElem hw1 fun j hj => ?_
      rw [hw2 j (by omega) (by simp only; omega)]
      simp only
      rw [List.getElem?_append_left (by omega)]
    rw [e] at R3
    simp only at R3
    rw [← hLa'] at R3
    exact R3

theorem Rep.doCutFirst {s P} (R : Rep s P) (h0 : 0 < (P.chunk 0).items.length) :
    Rep s.doCutFirst P.cutFirst := by
  have hc : 0 < P.chunks.length := List.length_pos_iff.mpr R.some
  obtain ⟨xs, ys, h⟩ := chunkSplit hc
  obtain ⟨l, o, r, hk, hl⟩ := chunk_items_split h0
  have f := R.facts h
  have fi := R.item h hk
  have hlen := h.len
  have hfit := R.fit
  have hde := R.dend
  have ho := f.kok.1 o (by rw [hk]; simp)
  have hmod (g : Item → Item) : (P.chunk 0).items.modify 0 g = l ++ g o :: r := by
    conv => lhs; rw [hk, ← hl]
    rw [List.modify_mid]
  rw [hl, hlen] at fi
  have e0 : ({ s.fill 0 with item := 0 } : Loc) = s.fill 0 := by
    have : s.fill 0 = ⟨xs.length, 0, (P.chunk 0).items.length, csize (P.chunk 0), P.start + dsize xs⟩ := by
      conv => lhs; rw [← hlen]
      exact f.fill
    rw [this]
  rw [e0] at fi
  obtain ⟨w, hw1, hw2, R1⟩ := R.resize (n := 4) h hk rfl (Nat.le_refl _) (by have := ho.2; omega)
  rw [hl, hlen, e0] at R1
  have ew : w = o.words.take 4 := by
    have := ho.2
    refine words_of_getElem (by simp; omega) fun j hj => ?_
    rw [hw2 j (by omega) (by omega), List.getElem?_take_of_lt (by omega)]
  have htmp : s.read (s.item (s.fill 0)) 4 = o.words.take 4 := by
    rw [fi.addr]
    have hm := fi.mem
    have : o.words = o.words.take 4 ++ o.words.drop 4 := by simp
    rw [this, At.append] at hm
    refine Pg.read_at hm.1 ?_
    have := ho.2
    simp; omega
  have R2 := R1.copy (w := o.words.take 4) (ChunkSplit.self P xs _ ys) rfl (by simp only; rw [hw1]; simp; omega)
  have hit : ∀ (s' : Pg) (k' : Chunk), Rep s' { P with chunks := xs ++ k' :: ys } →
      s'.item { s'.fill xs.length with item := l.length } = s'.item (s.fill 0) := by
    intro s' k' R'
    have f' := R'.facts (ChunkSplit.self P xs k' ys)
    rw [f'.fill, ← hlen, f.fill]
    simp only [Pg.item, hl]
  rw [hit _ _ R1] at R2
  unfold Pg.doCutFirst Page.cutFirst
  simp only
  rw [htmp, h.upd_eq, hmod]
  have e2 : o.words.take 4 ++ w.drop (o.words.take 4).length = o.words.take 4 := by
    rw [List.drop_eq_nil_of_le]
    · simp
    · have := ho.2
      simp; omega
  rw [e2] at R2
  exact R2

end Verif.PageChunks
