import Verif.PageChunks.Write

/-! # Bytes of B-tree pages: deletion of an item -/

namespace Verif.PageChunks

/-- `page_locator_delete_item` before its merge of chunks, src/btree/page_chunks.c:784-845. -/
def Pg.eraseItem (s : Pg) (l : Loc) : Pg :=
  let size := s.itemSize l
  let itemsShift := al l.count - al (l.count - 1)
  let dataShift := itemsShift + size
  let first := l.addr + al l.count
  let itemPtr := s.item l
  let s := loopUp (fun s i => s.put (l.addr + i) (shiftW (s.mem (l.addr + (i + 1))) 0 dataShift))
    (l.count - 1 - l.item) l.item s
  let s :=
    if itemsShift ≠ 0 then
      loopUp (fun s i => s.put (l.addr + i) (shiftW (s.mem (l.addr + i)) 0 itemsShift)) l.item 0
        (s.move (first - itemsShift) first itemPtr)
    else s
  let s := s.move (itemPtr - itemsShift) (itemPtr + size) s.dataSize
  let s := loopUp (fun s i => s.setDesc i { s.desc i with
      loc := shiftLoc (s.desc i).loc 0 dataShift
      off := (s.desc i).off + 1024 - 1 }) (s.chunksCount - (l.chunk + 1)) (l.chunk + 1) s
  { s with itemsCount := s.itemsCount - 1, dataSize := s.dataSize - dataShift }

theorem Pg.deleteItem_eq (s : Pg) (l : Loc) : s.deleteItem l =
    if l.count - 1 = 0 then
      if 0 < l.chunk then (s.eraseItem l).mergeChunks (l.chunk - 1)
      else if l.chunk + 1 < (s.eraseItem l).chunksCount then (s.eraseItem l).mergeChunks l.chunk
      else s.eraseItem l
    else s.eraseItem l := rfl

theorem Pg.eraseItem_eq (s : Pg) (L : Loc) (size ip sh : Nat) (hz : s.itemSize L = size) (hip : s.item L = ip)
    (hsh : al L.count - al (L.count - 1) = sh) (hi : L.item < L.count)
    (h1 : L.addr + al L.count ≤ ip) (h2 : ip + size ≤ s.dataSize) (h3 : s.dataSize ≤ 4096)
    (h4 : 28 ≤ L.addr) (h5 : 28 + 2 * s.chunksCount ≤ L.addr) :
    ∃ m1 m2 m3 m4 : Nat → Nat,
      m1 = (fun x => if L.addr + L.item ≤ x ∧ x < L.addr + L.item + (L.count - 1 - L.item) then
        shiftW (s.mem (x + 1)) 0 (sh + size) else s.mem x) ∧
      m2 = (if sh ≠ 0 then fun x => if L.addr + 0 ≤ x ∧ x < L.addr + 0 + L.item then
          shiftW (mMove m1 (L.addr + al L.count - sh) (L.addr + al L.count) (ip - (L.addr + al L.count)) x) 0 sh
        else mMove m1 (L.addr + al L.count - sh) (L.addr + al L.count) (ip - (L.addr + al L.count)) x
        else m1) ∧
      m3 = mMove m2 (ip - sh) (ip + size) (s.dataSize - (ip + size)) ∧
      m4 = dMap m3 (L.chunk + 1) (s.chunksCount - (L.chunk + 1)) (fun i =>
        { mdesc m3 i with loc := shiftLoc (mdesc m3 i).loc 0 (sh + size), off := (mdesc m3 i).off + 1024 - 1 }) ∧
      s.eraseItem L =
        { s with mem := m4, itemsCount := s.itemsCount - 1, dataSize := s.dataSize - (sh + size) } := by
  have hdo : descOff = 28 := rfl
  have hbl : blck = 4096 := rfl
  have hal1 := al_le L.count
  have hal2 := al_le (L.count - 1)
  have hsl : sh ≤ al L.count := by omega
  refine ⟨_, _, _, _, rfl, rfl, rfl, rfl, ?_⟩
  unfold Pg.eraseItem
  simp only
  rw [hz, hip, hsh]
  rw [loop_put_next L.addr _ _ (fun w => shiftW w 0 (sh + size)) _ (by omega)]
  by_cases h0 : sh ≠ 0
  · rw [if_pos h0, if_pos h0]
    rw [Pg.move_eq _ (L.addr + al L.count - sh) (L.addr + al L.count) ip (by omega)]
    rw [loop_put L.addr _ _ (fun w => shiftW w 0 sh) _ (by omega)]
    rw [Pg.move_eq _ (ip - sh) (ip + size) s.dataSize (by omega)]
    rw [loop_desc _ _ (fun d => { d with loc := shiftLoc d.loc 0 (sh + size), off := d.off + 1024 - 1 }) _
      (by simp only; omega)]
  · rw [if_neg h0, if_neg h0]
    rw [Pg.move_eq _ (ip - sh) (ip + size) s.dataSize (by omega)]
    rw [loop_desc _ _ (fun d => { d with loc := shiftLoc d.loc 0 (sh + size), off := d.off + 1024 - 1 }) _
      (by simp only; omega)]

set_option maxHeartbeats 1000000 in
theorem Rep.erase {s P c xs k ys l o r} (R : Rep s P) (h : ChunkSplit P c xs k ys)
    (hk : k.items = l ++ o :: r) :
    Rep (s.eraseItem { s.fill xs.length with item := l.length })
      { P with chunks := xs ++ { k with items := l ++ r } :: ys } := by
  have f := R.facts h
  have fi := R.item h hk
  have hnn : k.items.length = l.length + r.length + 1 := by rw [hk]; simp; omega
  have hlen : P.chunks.length = xs.length + 1 + ys.length := by rw [h.eq]; simp; omega
  have hil : ilen k.items = ilen l + (o.words.length + ilen r) := by rw [hk, ilen_append, ilen_cons]
  have hkf := R.kfit
  have hds := f.dend
  have hhl := hdrLen_le P.chunks.length
  have hdo : descOff = 28 := rfl
  have hc := h.len
  have hcnt := f.cnt
  have hl1 := limit_ge P.leaf
  have hl2 := R.slim
  have hal2 := al_le (l.length + r.length + 1)
  have hal3 : al (l.length + r.length) ≤ al (l.length + r.length + 1) := al_mono (by omega)
  have hal4 := al_le (l.length + r.length)
  have hcs : csize k = al (l.length + r.length + 1) + (ilen l + (o.words.length + ilen r)) := by
    rw [csize_eq, hnn, hil]
  have hn' : (l ++ r).length = l.length + r.length := by simp
  have hil' : ilen (l ++ r) = ilen l + ilen r := by rw [ilen_append]
  have hcs' : csize { k with items := l ++ r } = al (l.length + r.length) + (ilen l + ilen r) := by
    rw [csize_eq]
    simp only
    rw [hn', hil']
  have hfx := f.fit
  have o4 := (f.kok.1 o (by rw [hk]; simp)).1
  have hA4 := al_mod (l.length + r.length + 1)
  have hA4' := al_mod (l.length + r.length)
  have hchunk := f.chunk
  unfold ChunkAt at hchunk
  rw [hnn, hk, iarr_append, idata_append, At.append, At.append, iarr_length, idata_length, iarr, At.cons, idata_cons,
    At.append] at hchunk
  obtain ⟨⟨ca1, cax, ca2⟩, cd1, cdx, cd2⟩ := hchunk
  rw [f.fill, hnn] at fi
  rw [f.fill, hnn]
  obtain ⟨m1, m2, m3, m4, e1, e2, e3, e4, eq⟩ := Pg.eraseItem_eq s
    { (⟨xs.length, 0, l.length + r.length + 1, csize k, P.start + dsize xs⟩ : Loc) with item := l.length } _ _ _
    fi.size fi.addr rfl (by simp only; omega) (by simp only; omega) (by omega) (by omega) (by simp only; omega)
    (by simp only; omega)
  simp only [Nat.add_sub_cancel] at e1 e2 e3 e4 eq
  obtain ⟨sh, hsh⟩ : ∃ x, x = al (l.length + r.length + 1) - al (l.length + r.length) := ⟨_, rfl⟩
  rw [← hsh] at e1 e2 e3 e4 eq
  have hi1 : icount P.chunks = icount xs + k.items.length + icount ys := by
    rw [h.eq, icount_append, icount_cons]; omega
  have hitc := R.items
  -- memory above and below
  have low3 : ∀ x, x < P.start + dsize xs → m3 x = s.mem x := by
    intro x hx
    rw [e3, mMove_out (by omega), e2]
    split
    · simp only
      rw [if_neg (by omega), mMove_out (by omega), e1]
      simp only
      rw [if_neg (by omega)]
    · rw [e1]
      simp only
      rw [if_neg (by omega)]
  have high4 : ∀ x, P.start + dsize xs ≤ x → m4 x = m3 x := by
    intro x hx
    rw [e4, dMap_out (by omega)]
  have hd3 : ∀ j, j < P.chunks.length → mdesc m3 j = mdesc s.mem j := by
    intro j hj
    exact mdesc_congr fun x h1 h2 => low3 x (by omega)
  have arr1 : ∀ i, i < l.length → m4 (P.start + dsize xs + i) = shiftW (s.mem (P.start + dsize xs + i)) 0 sh := by
    intro i hi
    rw [high4 _ (by omega), e3, mMove_out (by omega), e2]
    split
    · simp only
      rw [if_pos (by omega), mMove_out (by omega), e1]
      simp only
      rw [if_neg (by omega)]
    · have h0 : sh = 0 := by omega
      have hlt := f.chunk.1.iarr_lt (by rw [hnn]; omega) i (by omega)
      rw [h0, shiftW_zero (by omega), e1]
      simp only
      rw [if_neg (by omega)]
  have arr2 : ∀ i, i < r.length → m4 (P.start + dsize xs + (l.length + i)) =
      shiftW (s.mem (P.start + dsize xs + (l.length + 1 + i))) 0 (sh + o.words.length) := by
    intro i hi
    have ee : P.start + dsize xs + (l.length + i) + 1 = P.start + dsize xs + (l.length + 1 + i) := by omega
    rw [high4 _ (by omega), e3, mMove_out (by omega), e2]
    split
    · simp only
      rw [if_neg (by omega), mMove_out (by omega), e1]
      simp only
      rw [if_pos (by omega), ee]
    · rw [e1]
      simp only
      rw [if_pos (by omega), ee]
  have data1 : ∀ i, i < ilen l → m4 (P.start + dsize xs + al (l.length + r.length) + i) =
      s.mem (P.start + dsize xs + al (l.length + r.length + 1) + i) := by
    intro i hi
    rw [high4 _ (by omega), e3, mMove_out (by omega), e2]
    split
    · simp only
      rw [if_neg (by omega), mMove_in (by omega), e1]
      simp only
      rw [if_neg (by omega)]
      congr 1
      omega
    · rw [e1]
      simp only
      rw [if_neg (by omega)]
      congr 1
      omega
  have data2 : ∀ i, i < ilen r + dsize ys → m4 (P.start + dsize xs + al (l.length + r.length) + ilen l + i) =
      s.mem (P.start + dsize xs + al (l.length + r.length + 1) + ilen l + o.words.length + i) := by
    intro i hi
    rw [high4 _ (by omega), e3, mMove_in (by omega), e2]
    split
    · simp only
      rw [if_neg (by omega), mMove_out (by omega), e1]
      simp only
      rw [if_neg (by omega)]
      congr 1
      omega
    · rw [e1]
      simp only
      rw [if_neg (by omega)]
      congr 1
      omega
  rw [eq]
  refine R.update h R.fine rfl rfl rfl rfl ?_ ?_ ?_ rfl rfl ?_ ?_ ?_ ?_ ?_ ?_ ?_
  · simp only; rw [hn']; omega
  · rw [hcs', hcs]; simp only; omega
  · simp only; omega
  · intro x hx
    simp only [List.mem_append] at hx
    rcases hx with hx | hx
    · exact f.kok.1 x (by rw [hk]; simp [hx])
    · exact f.kok.1 x (by rw [hk]; simp [hx])
  · intro x h1 h2
    simp only
    rw [e4, dMap_out (by omega), low3 x (by omega)]
  · intro j hj
    simp only
    rw [e4, mdesc_dMap_out (by omega), hd3 j (by omega)]
  · simp only
    rw [e4, mdesc_dMap_out (by omega), hd3 c (by omega)]
    have hd := f.desc
    rw [Pg.desc_eq, hc] at hd
    rw [hd]
  · intro j p q' q fx fl h1 h2 h3 h4' h5 h6 h7 h8 h9 h10 h11 hd
    simp only
    rw [e4, mdesc_dMap_in (by omega), hd3 j h2, hd, hcs', hcs, hn', hnn]
    rw [hcs', hcs] at h7
    unfold Desc.cut shiftLoc
    simp only [Desc.mk.injEq, true_and]
    refine ⟨?_, ?_, ?_, ?_⟩ <;> omega
  · simp only
    unfold ChunkAt
    rw [hn', iarr_append, idata_append, At.append, At.append, iarr_length, idata_length]
    refine ⟨⟨?_, ?_⟩, ?_, ?_⟩
    · have := iarr_shift (m' := m4) (a' := P.start + dsize xs) (up := 0) (dn := sh) ca1
        (by omega) (by omega) arr1
      have e : al (l.length + r.length + 1) + 0 - sh = al (l.length + r.length) := by omega
      rw [e] at this
      exact this
    · have := iarr_shift (m' := m4) (a' := P.start + dsize xs + l.length) (up := 0) (dn := sh + o.words.length) ca2
        (by omega) (by omega) (fun i hi => by
          have := arr2 i hi
          have ee : P.start + dsize xs + (l.length + i) = P.start + dsize xs + l.length + i := by omega
          have ee2 : P.start + dsize xs + (l.length + 1 + i) = P.start + dsize xs + l.length + 1 + i := by omega
          rw [ee, ee2] at this
          exact this)
      have e : al (l.length + r.length + 1) + ilen l + o.words.length + 0 - (sh + o.words.length) =
        al (l.length + r.length) + ilen l := by omega
      rw [e] at this
      exact this
    · refine cd1.frame fun i hi => ?_
      rw [idata_length] at hi
      exact data1 i hi
    · refine cd2.frame fun i hi => ?_
      rw [idata_length] at hi
      exact data2 i (by omega)
  · intro i hi
    simp only
    have := data2 (ilen r + i) (by omega)
    rw [hcs', hcs]
    have ee : P.start + dsize xs + (al (l.length + r.length) + (ilen l + ilen r)) + i =
      P.start + dsize xs + al (l.length + r.length) + ilen l + (ilen r + i) := by omega
    rw [ee, this]
    congr 1
    omega

end Verif.PageChunks
