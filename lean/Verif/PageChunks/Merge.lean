import Verif.PageChunks.Delete

/-! # Bytes of B-tree pages: merge of two chunks -/

namespace Verif.PageChunks

/-- The items in `page_merge_chunks`, src/btree/page_chunks.c:658-716. -/
def Pg.mergeData (s : Pg) (c : Nat) : Pg :=
  let l1 := s.fill c
  let l2 := s.fill (c + 1)
  let data1 := l1.addr + al l1.count
  let end1 := l1.addr + l1.size
  let data2 := l2.addr + al l2.count
  let shift1 := al (l1.count + l2.count) - al l1.count
  let shift2 := al l1.count + al l2.count - al (l1.count + l2.count)
  let tmp := (s.read l2.addr l2.count).map fun w =>
    shiftW w (al (l1.count + l2.count) + (end1 - data1)) (al l2.count)
  let s := { s with bad := s.bad || decide (maxChunkItems < l2.count) }
  let s :=
    if shift1 ≠ 0 then
      (loopUp (fun s i => s.put (l1.addr + i) (shiftW (s.mem (l1.addr + i)) shift1 0)) l1.count 0
        s).move (data1 + shift1) data1 end1
    else s
  let s :=
    if shift2 ≠ 0 then
      { s.move (data2 - shift2) data2 s.dataSize with dataSize := s.dataSize - shift2 }
    else s
  s.copyIn (l1.addr + l1.count) tmp

/-- The descriptors and keys in `page_merge_chunks`, src/btree/page_chunks.c:718-768. -/
def Pg.mergeKeys (s : Pg) (c shift2 : Nat) : Pg :=
  let hs := hdrLen s.chunksCount - hdrLen (s.chunksCount - 1)
  let h0 := 2 * (s.desc 0).hloc
  let hc := 2 * (s.desc c).hloc
  let hn := 2 * (s.desc (c + 1)).hloc
  let hs2 := hs + hn - hc
  let s := s.setDesc c { s.desc c with
    flags := (s.desc (c + 1)).flags
    fixed := (s.desc c).fixed && (s.desc (c + 1)).fixed }
  let s := loopUp (fun s i => s.setDesc (i - 1) { s.desc i with
      hloc := shiftH (s.desc i).hloc 0 hs2
      loc := shiftLoc (s.desc i).loc 0 shift2 }) (s.chunksCount - (c + 2)) (c + 2) s
  let s :=
    if hs ≠ 0 then
      (loopUp (fun s i => s.setDesc i { s.desc i with hloc := shiftH (s.desc i).hloc 0 hs })
        (c + 1) 0 s).move (h0 - hs) h0 hc
    else s
  let s := s.move (hc - hs) hn s.hikeysEnd
  { s with hikeysEnd := s.hikeysEnd - hs2, chunksCount := s.chunksCount - 1 }

theorem Pg.mergeChunks_eq (s : Pg) (c : Nat) : s.mergeChunks c =
    let s' := (s.mergeData c).mergeKeys c (al (s.fill c).count + al (s.fill (c + 1)).count -
      al ((s.fill c).count + (s.fill (c + 1)).count))
    { s' with hikeysFixed := (List.range s'.chunksCount).all fun i => decide ((s'.desc i).flags % 2 = 1) } := rfl

theorem Pg.mergeData_eq (s : Pg) (c a n1 n2 e1 z2 : Nat) (h1 : s.fill c = ⟨c, 0, n1, e1 - a, a⟩)
    (h2 : s.fill (c + 1) = ⟨c + 1, 0, n2, z2, e1⟩) (hn : n2 ≤ 819) (ha : 28 ≤ a)
    (he : a + al n1 ≤ e1) (hd : e1 + al n2 ≤ s.dataSize) (hs : s.dataSize ≤ 4096) :
    ∃ m1 m2 m3 : Nat → Nat,
      m1 = (if al (n1 + n2) - al n1 ≠ 0 then
        mMove (fun x => if a + 0 ≤ x ∧ x < a + 0 + n1 then shiftW (s.mem x) (al (n1 + n2) - al n1) 0 else s.mem x)
          (a + al n1 + (al (n1 + n2) - al n1)) (a + al n1) (e1 - (a + al n1)) else s.mem) ∧
      m2 = (if al n1 + al n2 - al (n1 + n2) ≠ 0 then
        mMove m1 (e1 + al n2 - (al n1 + al n2 - al (n1 + n2))) (e1 + al n2) (s.dataSize - (e1 + al n2)) else m1) ∧
      m3 = mCopy m2 (a + n1) ((s.read e1 n2).map fun w => shiftW w (al (n1 + n2) + (e1 - (a + al n1))) (al n2)) ∧
      s.mergeData c = { s with mem := m3, dataSize := s.dataSize - (al n1 + al n2 - al (n1 + n2)) } := by
  have hdo : descOff = 28 := rfl
  have hbl : blck = 4096 := rfl
  have ha1 := al_le n1
  have ha2 := al_le n2
  have ha3 : al (n1 + n2) ≤ al n1 + al n2 := by unfold al; omega
  have hb : decide (maxChunkItems < n2) = false := by
    rw [decide_eq_false_iff_not]
    unfold maxChunkItems
    omega
  have hend : a + (e1 - a) = e1 := by omega
  refine ⟨_, _, _, rfl, rfl, rfl, ?_⟩
  unfold Pg.mergeData
  simp only
  rw [h1, h2]
  simp only
  rw [hb, hend]
  simp only [Bool.or_false]
  have hlen : ((s.read e1 n2).map fun w =>
      shiftW w (al (n1 + n2) + (e1 - (a + al n1))) (al n2)).length = n2 := by
    rw [List.length_map, Pg.read_length]
  have hmn : n1 + n2 ≤ al (n1 + n2) := al_le _
  by_cases c1 : al (n1 + n2) - al n1 ≠ 0
  · rw [if_pos c1, if_pos c1]
    rw [loop_put a _ _ (fun w => shiftW w (al (n1 + n2) - al n1) 0) _ (by omega)]
    rw [Pg.move_eq _ (a + al n1 + (al (n1 + n2) - al n1)) (a + al n1) e1 (by omega)]
    by_cases c2 : al n1 + al n2 - al (n1 + n2) ≠ 0
    · rw [if_pos c2, if_pos c2]
      rw [Pg.move_eq _ (e1 + al n2 - (al n1 + al n2 - al (n1 + n2))) (e1 + al n2) s.dataSize (by omega)]
      rw [Pg.copyIn_eq _ _ _ (by omega)]
    · rw [if_neg c2, if_neg c2]
      rw [Pg.copyIn_eq _ _ _ (by omega)]
      have : al n1 + al n2 - al (n1 + n2) = 0 := by omega
      rw [this]
      rfl
  · rw [if_neg c1, if_neg c1]
    by_cases c2 : al n1 + al n2 - al (n1 + n2) ≠ 0
    · rw [if_pos c2, if_pos c2]
      rw [Pg.move_eq _ (e1 + al n2 - (al n1 + al n2 - al (n1 + n2))) (e1 + al n2) s.dataSize (by omega)]
      rw [Pg.copyIn_eq _ _ _ (by omega)]
    · rw [if_neg c2, if_neg c2]
      rw [Pg.copyIn_eq _ _ _ (by omega)]
      have : al n1 + al n2 - al (n1 + n2) = 0 := by omega
      rw [this]
      rfl

theorem Pg.mergeKeys_eq (s : Pg) (c z h0 hc hn hs : Nat) (e0 : 2 * (mdesc s.mem 0).hloc = h0)
    (ec : 2 * (mdesc s.mem c).hloc = hc) (en : 2 * (mdesc s.mem (c + 1)).hloc = hn)
    (ehs : hdrLen s.chunksCount - hdrLen (s.chunksCount - 1) = hs)
    (hN : c + 2 ≤ s.chunksCount) (h1 : 28 + 2 * s.chunksCount ≤ h0) (h1' : h0 = hdrLen s.chunksCount) (h2 : h0 ≤ hc)
    (h3 : hc ≤ hn) (h4 : hn ≤ s.hikeysEnd) (h5 : s.hikeysEnd ≤ 4096) :
    ∃ m4 m5 m6 m7 : Nat → Nat,
      m4 = dSet s.mem c { mdesc s.mem c with
        flags := (mdesc s.mem (c + 1)).flags, fixed := (mdesc s.mem c).fixed && (mdesc s.mem (c + 1)).fixed } ∧
      m5 = dMap m4 (c + 1) (s.chunksCount - (c + 2)) (fun i => { mdesc m4 (i + 1) with
        hloc := shiftH (mdesc m4 (i + 1)).hloc 0 (hs + hn - hc), loc := shiftLoc (mdesc m4 (i + 1)).loc 0 z }) ∧
      m6 = (if hs ≠ 0 then mMove (dMap m5 0 (c + 1) fun i =>
          { mdesc m5 i with hloc := shiftH (mdesc m5 i).hloc 0 hs }) (h0 - hs) h0 (hc - h0) else m5) ∧
      m7 = mMove m6 (hc - hs) hn (s.hikeysEnd - hn) ∧
      s.mergeKeys c z = { s with
        mem := m7, hikeysEnd := s.hikeysEnd - (hs + hn - hc), chunksCount := s.chunksCount - 1 } := by
  have hdo : descOff = 28 := rfl
  have hbl : blck = 4096 := rfl
  have hst := hdrLen_step (s.chunksCount - 1)
  have hle := hdrLen_le (s.chunksCount - 1)
  have hq : s.chunksCount - 1 + 1 = s.chunksCount := by omega
  rw [hq] at hst
  refine ⟨_, _, _, _, rfl, rfl, rfl, rfl, ?_⟩
  unfold Pg.mergeKeys
  simp only [Pg.desc_eq]
  rw [e0, ec, en, ehs]
  rw [Pg.setDesc_eq _ _ _ (by omega)]
  have k1 : c + 2 - 1 = c + 1 := by omega
  have LP := fun (n : Nat) (s' : Pg) (hb : n = 0 ∨ descOff + 2 * (c + 2 + n) ≤ blck) =>
    loop_desc_prev n (c + 2) (fun d => { d with hloc := shiftH d.hloc 0 (hs + hn - hc), loc := shiftLoc d.loc 0 z }) s'
      (by omega) hb
  simp only [Pg.desc_eq, k1] at LP
  have LD := fun (s' : Pg) (hb : c + 1 = 0 ∨ descOff + 2 * (0 + (c + 1)) ≤ blck) =>
    loop_desc (c + 1) 0 (fun d => { d with hloc := shiftH d.hloc 0 hs }) s' hb
  simp only [Pg.desc_eq] at LD
  rw [LP _ _ (by simp only; omega)]
  by_cases c1 : hs ≠ 0
  · rw [if_pos c1, if_pos c1]
    rw [LD _ (by omega)]
    rw [Pg.move_eq _ (h0 - hs) h0 hc (by omega)]
    rw [Pg.move_eq _ (hc - hs) hn s.hikeysEnd (by omega)]
  · rw [if_neg c1, if_neg c1]
    rw [Pg.move_eq _ (hc - hs) hn s.hikeysEnd (by omega)]

/-- Where everything is after a merge. -/
structure Merged (s : Pg) (m : Nat → Nat) (P : Page) (xs : List Chunk) (k1 k2 : Chunk) (ys : List Chunk) (N hs : Nat) :
    Prop where
  dlow : ∀ j p o q fx fl, j < xs.length → p % 4 = 0 → p ≤ 4096 → o ≤ 800 → hs ≤ q → q % 4 = 0 → q < 256 → fl < 4 →
    mdesc s.mem j = ⟨p / 2, o, q / 2, fx, fl⟩ → mdesc m j = ⟨p / 2, o, (q - hs) / 2, fx, fl⟩
  dmid : mdesc m xs.length = ⟨(P.start + dsize xs) / 2, icount xs, (hdrLen N + ksize xs - hs) / 2,
    k1.fixed && k2.fixed, k2.kflags⟩
  dhigh : ∀ j p o q fx fl, xs.length + 1 < j → j < N → p % 4 = 0 →
    al k1.items.length + al k2.items.length - al (k1.items.length + k2.items.length) ≤ p →
    p ≤ 4096 → o ≤ 800 → hs + k1.key.length ≤ q →
    q % 4 = 0 → q < 256 → fl < 4 →
    mdesc s.mem j = ⟨p / 2, o, q / 2, fx, fl⟩ →
    mdesc m (j - 1) =
      ⟨(p - (al k1.items.length + al k2.items.length - al (k1.items.length + k2.items.length))) / 2,
        o, (q - (hs + k1.key.length)) / 2, fx, fl⟩
  keys1 : ∀ i, i < ksize xs → m (hdrLen N - hs + i) = s.mem (hdrLen N + i)
  keys2 : ∀ i, i < k2.key.length + ksize ys →
    m (hdrLen N - hs + ksize xs + i) = s.mem (hdrLen N + ksize xs + k1.key.length + i)
  low : ∀ x, P.start ≤ x → x < P.start + dsize xs → m x = s.mem x
  arr1 : ∀ i, i < k1.items.length → m (P.start + dsize xs + i) =
    shiftW (s.mem (P.start + dsize xs + i)) (al (k1.items.length + k2.items.length) - al k1.items.length) 0
  arr2 : ∀ i, i < k2.items.length → m (P.start + dsize xs + k1.items.length + i) =
    shiftW (s.mem (P.start + dsize xs + csize k1 + i)) (al (k1.items.length + k2.items.length) + ilen k1.items)
      (al k2.items.length)
  data1 : ∀ i, i < ilen k1.items →
    m (P.start + dsize xs + al (k1.items.length + k2.items.length) + i) =
      s.mem (P.start + dsize xs + al k1.items.length + i)
  data2 : ∀ i, i < ilen k2.items + dsize ys →
    m (P.start + dsize xs + al (k1.items.length + k2.items.length) + ilen k1.items + i) =
      s.mem (P.start + dsize xs + csize k1 + al k2.items.length + i)

theorem ChunkSplit.two {P : Page} {c xs k1 k2 ys} (h : ChunkSplit P c xs k1 (k2 :: ys)) :
    ChunkSplit P (c + 1) (xs ++ [k1]) k2 ys := ⟨by rw [h.eq]; simp, by simp [h.len]⟩

theorem Rep.desc0 {s P} (R : Rep s P) : 2 * (mdesc s.mem 0).hloc = hdrLen P.chunks.length := by
  have h1 := R.descs
  have h2 := R.some
  have h3 := hdrLen_mod P.chunks.length
  obtain ⟨z, hz⟩ : ∃ x, x = hdrLen P.chunks.length := ⟨_, rfl⟩
  rw [← hz] at h1 h3 ⊢
  cases hP : P.chunks with
  | nil => exact absurd hP h2
  | cons x l =>
    rw [hP] at h1
    rw [h1.head]
    simp only
    omega

set_option maxHeartbeats 2000000 in
theorem Rep.merged {s P c xs k1 k2 ys} (R : Rep s P) (h : ChunkSplit P c xs k1 (k2 :: ys)) :
    ∃ m, Merged s m P xs k1 k2 ys P.chunks.length (hdrLen P.chunks.length - hdrLen (P.chunks.length - 1)) ∧
      ∃ b, s.mergeChunks c = { s with
        mem := m
        hikeysFixed := b
        hikeysEnd := s.hikeysEnd - (hdrLen P.chunks.length - hdrLen (P.chunks.length - 1) + k1.key.length)
        chunksCount := s.chunksCount - 1
        dataSize := s.dataSize -
          (al k1.items.length + al k2.items.length - al (k1.items.length + k2.items.length)) } := by
  have f := R.facts h
  have g := R.facts h.two
  have hlen : P.chunks.length = xs.length + 2 + ys.length := by rw [h.eq]; simp; omega
  have hkf := R.kfit
  have hhl := hdrLen_le P.chunks.length
  have hdo : descOff = 28 := rfl
  have hc := h.len
  have hcnt := R.count
  have hl1 := limit_ge P.leaf
  have hl2 := R.slim
  have hic := R.icount_lt
  have hfit := f.fit
  have hds := f.dend
  have gds := g.dend
  have gfit := g.fit
  have g1 : dsize (xs ++ [k1]) = dsize xs + csize k1 := by rw [dsize_append]; simp [dsize]
  have g2 : ksize (xs ++ [k1]) = ksize xs + k1.key.length := by rw [ksize_append]; simp [ksize]
  have g3 : (xs ++ [k1]).length = xs.length + 1 := by simp
  have g4 : icount (xs ++ [k1]) = icount xs + k1.items.length := by rw [icount_append]; simp [icount]
  have hi1 : icount P.chunks = icount xs + (k1.items.length + (k2.items.length + icount ys)) := by
    rw [h.eq, icount_append, icount_cons, icount_cons]
  have hk1 : ksize P.chunks = ksize xs + (k1.key.length + (k2.key.length + ksize ys)) := by
    rw [h.eq, ksize_append, ksize_cons, ksize_cons]
  have hke := R.kend
  have c1 := csize_eq k1
  have c2 := csize_eq k2
  have ffill := f.fill
  have gfill := g.fill
  have gdesc := g.desc
  have gchunk := g.chunk
  rw [g1] at gfill gdesc gds gfit gchunk
  rw [g2, g3, g4] at gdesc
  rw [g3] at gfill
  rw [Pg.desc_eq] at gdesc
  have fdesc := f.desc
  rw [Pg.desc_eq] at fdesc
  have hst := hdrLen_step (P.chunks.length - 1)
  have hq : P.chunks.length - 1 + 1 = P.chunks.length := by omega
  have hle := hdrLen_le (P.chunks.length - 1)
  rw [hq] at hst
  obtain ⟨hs, hhs⟩ : ∃ x, x = hdrLen P.chunks.length - hdrLen (P.chunks.length - 1) := ⟨_, rfl⟩
  have hhs4 : hs % 4 = 0 := by
    have := hdrLen_mod P.chunks.length
    have := hdrLen_mod (P.chunks.length - 1)
    omega
  rw [← hhs]
  have hkl : hdrLen P.chunks.length + (ksize xs + k1.key.length) < 256 := by
    have := R.klast
    obtain ⟨z, hz⟩ : ∃ x, x = hdrLen P.chunks.length := ⟨_, rfl⟩
    rw [← hz] at this ⊢
    rw [h.eq, List.dropLast_append_of_ne_nil (by simp), List.dropLast_cons_of_ne_nil (by simp), ksize_append,
      ksize_cons] at this
    omega
  have hz4 := hdrLen_mod P.chunks.length
  have hx4 := f.xok.ksize
  have hkk4 := f.kok.2.1
  have ha1 := al_le k1.items.length
  have ha2 := al_le k2.items.length
  have ha3 : al (k1.items.length + k2.items.length) ≤ al k1.items.length + al k2.items.length := by unfold al; omega
  have ha4 := al_le (k1.items.length + k2.items.length)
  have ha5 : al k1.items.length ≤ al (k1.items.length + k2.items.length) := al_mono (by omega)
  have ha6 : al k2.items.length ≤ al (k1.items.length + k2.items.length) := al_mono (by omega)
  have b1 := al_mod k1.items.length
  have b2 := al_mod k2.items.length
  have b3 := al_mod (k1.items.length + k2.items.length)
  obtain ⟨m1, m2, m3, e1, e2, e3, eqd⟩ := Pg.mergeData_eq s xs.length (P.start + dsize xs) k1.items.length
    k2.items.length (P.start + dsize xs + csize k1) (csize k2) (by rw [ffill]; simp only [Loc.mk.injEq, true_and, and_true]; omega)
    (by rw [gfill]; simp only [Loc.mk.injEq, true_and]; omega) (by omega) (by omega) (by omega) (by omega) (by omega)
  have low3 : ∀ x, x < P.start + dsize xs → m3 x = s.mem x := by
    intro x hx
    rw [e3, mCopy_out (by omega), e2]
    split
    · rw [mMove_out (by omega), e1]
      split
      · rw [mMove_out (by omega)]
        rw [if_neg (by omega)]
      · rfl
    · rw [e1]
      split
      · rw [mMove_out (by omega)]
        rw [if_neg (by omega)]
      · rfl
  have hd3 : ∀ j, j < P.chunks.length → mdesc m3 j = mdesc s.mem j := by
    intro j hj
    exact mdesc_congr fun x h1 h2 => low3 x (by omega)
  have d0 := R.desc0
  obtain ⟨m4, m5, m6, m7, e4, e5, e6, e7, eqk⟩ := Pg.mergeKeys_eq (s.mergeData xs.length) xs.length
    (al k1.items.length + al k2.items.length - al (k1.items.length + k2.items.length))
    (hdrLen P.chunks.length) (hdrLen P.chunks.length + ksize xs) (hdrLen P.chunks.length + ksize xs + k1.key.length) hs
    (by rw [eqd]; simp only; rw [hd3 _ (by omega), d0])
    (by rw [eqd]; simp only; rw [hd3 _ (by omega), fdesc]; simp only; omega)
    (by rw [eqd]; simp only; rw [hd3 _ (by omega), gdesc]; simp only; omega)
    (by rw [eqd]; simp only; rw [hcnt, hhs]) (by rw [eqd]; simp only; omega) (by rw [eqd]; simp only; omega)
    (by rw [eqd]; simp only; rw [hcnt])
    (by omega) (by omega) (by rw [eqd]; simp only; omega) (by rw [eqd]; simp only; omega)
  rw [eqd] at e4 e5 e7 eqk
  simp only at e4 e5 e7 eqk
  refine ⟨m7, ?_, ?_⟩
  · have h76 : ∀ x, x < hdrLen P.chunks.length - hs + ksize xs → m7 x = m6 x := by
      intro x hx
      rw [e7, mMove_out (by omega)]
    have h65 : ∀ x, P.start ≤ x → m7 x = m3 x := by
      intro x hx
      rw [e7, mMove_out (by omega), e6]
      split
      · rw [mMove_out (by omega), dMap_out (by omega), e5, dMap_out (by omega), e4, dSet_out (by omega)]
      · rw [e5, dMap_out (by omega), e4, dSet_out (by omega)]
    have hd7 : ∀ j, j < P.chunks.length - 1 → mdesc m7 j = mdesc m6 j := by
      intro j hj
      exact mdesc_congr fun x h1 h2 => h76 x (by omega)
    have hd4 : ∀ j, j ≠ xs.length → j < P.chunks.length → mdesc m4 j = mdesc s.mem j := by
      intro j h1 h2
      rw [e4, mdesc_dSet_ne h1, hd3 j h2]
    have hd5l : ∀ j, j < xs.length → mdesc m5 j = mdesc s.mem j := by
      intro j hj
      rw [e5, mdesc_dMap_out (by omega), hd4 j (by omega) (by omega)]
    have hd6 : ∀ j, j < xs.length + 1 → hs ≠ 0 → mdesc m6 j =
        Desc.cut { mdesc m5 j with hloc := shiftH (mdesc m5 j).hloc 0 hs } := by
      intro j hj h0
      rw [e6, if_pos h0]
      have : mdesc (mMove (dMap m5 0 (xs.length + 1) fun i =>
          { mdesc m5 i with hloc := shiftH (mdesc m5 i).hloc 0 hs }) (hdrLen P.chunks.length - hs)
          (hdrLen P.chunks.length) (hdrLen P.chunks.length + ksize xs - hdrLen P.chunks.length)) j =
          mdesc (dMap m5 0 (xs.length + 1) fun i =>
          { mdesc m5 i with hloc := shiftH (mdesc m5 i).hloc 0 hs }) j :=
        mdesc_congr fun x h1 h2 => mMove_out (by omega)
      rw [this, mdesc_dMap_in (by omega)]
    have hd6h : ∀ j, xs.length + 1 ≤ j → j < P.chunks.length - 1 → mdesc m6 j = mdesc m5 j := by
      intro j hj hj2
      rw [e6]
      split
      · exact mdesc_congr fun x h1 h2 => by rw [mMove_out (by omega), dMap_out (by omega)]
      · rfl
    refine ⟨?_, ?_, ?_, ?_, ?_, ?_, ?_, ?_, ?_, ?_⟩
    · intro j p o q fx fl hj hp hp2 ho hq hq4 hq2 hfl hd
      rw [hd7 j (by omega)]
      by_cases h0 : hs ≠ 0
      · rw [hd6 j (by omega) h0, hd5l j hj, hd]
        unfold Desc.cut shiftH
        simp only [Desc.mk.injEq, true_and]
        refine ⟨?_, ?_, ?_, ?_⟩ <;> omega
      · rw [e6, if_neg h0, hd5l j hj, hd]
        simp only [Desc.mk.injEq, true_and, and_true]
        omega
    · have hm : mdesc m5 xs.length = ⟨(P.start + dsize xs) / 2, icount xs, (hdrLen P.chunks.length + ksize xs) / 2,
          k1.fixed && k2.fixed, k2.kflags⟩ := by
        have hfl := g.kok.2.2
        rw [e5, mdesc_dMap_out (by omega), e4, mdesc_dSet_self, hd3 _ (by omega), hd3 _ (by omega), fdesc, gdesc]
        unfold Desc.cut
        simp only [Desc.mk.injEq, true_and, and_true]
        refine ⟨?_, ?_, ?_, ?_⟩ <;> omega
      rw [hd7 _ (by omega)]
      by_cases h0 : hs ≠ 0
      · rw [hd6 _ (by omega) h0, hm]
        have hfl := g.kok.2.2
        unfold Desc.cut shiftH
        simp only [Desc.mk.injEq, true_and]
        refine ⟨?_, ?_, ?_, ?_⟩ <;> omega
      · rw [e6, if_neg h0, hm]
        simp only [Desc.mk.injEq, true_and, and_true]
        omega
    · intro j p o q fx fl hj hj2 hp hpz hp2 ho hq hq4 hq2 hfl hd
      have ej : j - 1 + 1 = j := by omega
      rw [hd7 _ (by omega), hd6h _ (by omega) (by omega), e5, mdesc_dMap_in (by omega), ej,
        hd4 j (by omega) (by omega), hd]
      unfold Desc.cut shiftH shiftLoc
      simp only [Desc.mk.injEq, true_and]
      refine ⟨?_, ?_, ?_, ?_⟩ <;> omega
    · intro i hi
      rw [h76 _ (by omega), e6]
      split
      · rw [mMove_in (by omega), dMap_out (by omega), e5, dMap_out (by omega), e4, dSet_out (by omega),
          low3 _ (by omega)]
        congr 1
        omega
      · rw [e5, dMap_out (by omega), e4, dSet_out (by omega), low3 _ (by omega)]
        congr 1
        omega
    · intro i hi
      rw [e7, mMove_in (by omega), e6]
      split
      · rw [mMove_out (by omega), dMap_out (by omega), e5, dMap_out (by omega), e4, dSet_out (by omega),
          low3 _ (by omega)]
        congr 1
        omega
      · rw [e5, dMap_out (by omega), e4, dSet_out (by omega), low3 _ (by omega)]
        congr 1
        omega
    · intro x hx hx2
      rw [h65 x hx, low3 x hx2]
    · intro i hi
      rw [h65 _ (by omega), e3, mCopy_out (by omega), e2]
      have key : m1 (P.start + dsize xs + i) = shiftW (s.mem (P.start + dsize xs + i))
          (al (k1.items.length + k2.items.length) - al k1.items.length) 0 := by
        rw [e1]
        split
        · rw [mMove_out (by omega)]
          rw [if_pos (by omega)]
        · rename_i h0
          have : al (k1.items.length + k2.items.length) - al k1.items.length = 0 := by omega
          have hlt := f.chunk.1.iarr_lt (by omega) i (by omega)
          rw [this, shiftW_zero (by omega)]
      split
      · rw [mMove_out (by omega), key]
      · exact key
    · intro i hi
      have hl : ((s.read (P.start + dsize xs + csize k1) k2.items.length).map fun w =>
        shiftW w (al (k1.items.length + k2.items.length) +
          (P.start + dsize xs + csize k1 - (P.start + dsize xs + al k1.items.length))) (al k2.items.length)).length =
          k2.items.length := by
        rw [List.length_map, Pg.read_length]
      have := mCopy_at m2 (P.start + dsize xs + k1.items.length)
        ((s.read (P.start + dsize xs + csize k1) k2.items.length).map fun w =>
        shiftW w (al (k1.items.length + k2.items.length) +
          (P.start + dsize xs + csize k1 - (P.start + dsize xs + al k1.items.length))) (al k2.items.length))
      have := this.getElem (i := i) (by omega)
      rw [h65 _ (by omega), e3, this]
      simp only [List.getElem_map, Pg.read, List.getElem_range]
      have : P.start + dsize xs + csize k1 - (P.start + dsize xs + al k1.items.length) = ilen k1.items := by omega
      rw [this]
    · intro i hi
      rw [h65 _ (by omega), e3, mCopy_out (by rw [List.length_map, Pg.read_length]; omega), e2]
      have key : m1 (P.start + dsize xs + al (k1.items.length + k2.items.length) + i) =
          s.mem (P.start + dsize xs + al k1.items.length + i) := by
        rw [e1]
        split
        · rw [mMove_in (by omega)]
          rw [if_neg (by omega)]
          congr 1
          omega
        · congr 1
          omega
      split
      · rw [mMove_out (by omega), key]
      · exact key
    · intro i hi
      rw [h65 _ (by omega), e3, mCopy_out (by rw [List.length_map, Pg.read_length]; omega), e2]
      have key : ∀ x, P.start + dsize xs + csize k1 + al k2.items.length ≤ x → m1 x = s.mem x := by
        intro x hx
        rw [e1]
        split
        · rw [mMove_out (by omega)]
          rw [if_neg (by omega)]
        · rfl
      split
      · rw [mMove_in (by omega), key _ (by omega)]
        congr 1
        omega
      · rw [key _ (by omega)]
        congr 1
        omega
  · rw [Pg.mergeChunks_eq]
    simp only
    rw [← hc, ffill, gfill]
    simp only
    rw [eqd, eqk]
    simp only
    have : hs + (hdrLen P.chunks.length + ksize xs + k1.key.length) - (hdrLen P.chunks.length + ksize xs) =
      hs + k1.key.length := by omega
    rw [this]
    exact ⟨_, rfl⟩

set_option maxHeartbeats 1000000 in
theorem Rep.merge {s P c xs k1 k2 ys} (R : Rep s P) (h : ChunkSplit P c xs k1 (k2 :: ys)) :
    Rep (s.mergeChunks c) { P with chunks := xs ++ k1.join k2 :: ys } := by
  obtain ⟨m, M, b, eq⟩ := R.merged h
  have f := R.facts h
  have g := R.facts h.two
  have hlen : P.chunks.length = xs.length + 2 + ys.length := by rw [h.eq]; simp; omega
  have hkf := R.kfit
  have hhl := hdrLen_le P.chunks.length
  have hc := h.len
  have hcnt := R.count
  have hl1 := limit_ge P.leaf
  have hl2 := R.slim
  have hic := R.icount_lt
  have hfit := f.fit
  have hds := f.dend
  have gds := g.dend
  have gfit := g.fit
  have g1 : dsize (xs ++ [k1]) = dsize xs + csize k1 := by rw [dsize_append]; simp [dsize]
  have g2 : ksize (xs ++ [k1]) = ksize xs + k1.key.length := by rw [ksize_append]; simp [ksize]
  have g3 : (xs ++ [k1]).length = xs.length + 1 := by simp
  have g4 : icount (xs ++ [k1]) = icount xs + k1.items.length := by rw [icount_append]; simp [icount]
  have hi1 : icount P.chunks = icount xs + (k1.items.length + (k2.items.length + icount ys)) := by
    rw [h.eq, icount_append, icount_cons, icount_cons]
  have hk1 : ksize P.chunks = ksize xs + (k1.key.length + (k2.key.length + ksize ys)) := by
    rw [h.eq, ksize_append, ksize_cons, ksize_cons]
  have hke := R.kend
  have c1 := csize_eq k1
  have c2 := csize_eq k2
  have gchunk := g.chunk
  have gafter := g.after
  have gdys := g.dys
  rw [g1] at gds gfit gchunk gafter gdys
  rw [g2, g3, g4] at gdys
  have hst := hdrLen_step (P.chunks.length - 1)
  have hq : P.chunks.length - 1 + 1 = P.chunks.length := by omega
  rw [hq] at hst
  obtain ⟨hs, hhs⟩ : ∃ x, x = hdrLen P.chunks.length - hdrLen (P.chunks.length - 1) := ⟨_, rfl⟩
  have hz4 := hdrLen_mod P.chunks.length
  have hz4' := hdrLen_mod (P.chunks.length - 1)
  rw [← hhs] at M eq
  have hn' : (xs ++ k1.join k2 :: ys).length = P.chunks.length - 1 := by simp; omega
  have hci : (k1.join k2).items = k1.items ++ k2.items := rfl
  have hck : (k1.join k2).key = k2.key := rfl
  have hcs : csize (k1.join k2) = al (k1.items.length + k2.items.length) + (ilen k1.items + ilen k2.items) := by
    rw [csize_eq, hci, ilen_append, List.length_append]
  have hxd := f.xok.dsize
  have hkl := R.klast
  have hx4 := f.xok.ksize
  have hkk4 := f.kok.2.1
  have hgk4 := g.kok.2.1
  have ha1 := al_le k1.items.length
  have ha2 := al_le k2.items.length
  have ha3 : al (k1.items.length + k2.items.length) ≤ al k1.items.length + al k2.items.length := by unfold al; omega
  have ha4 := al_le (k1.items.length + k2.items.length)
  have ha5 : al k1.items.length ≤ al (k1.items.length + k2.items.length) := al_mono (by omega)
  have ha6 : al k2.items.length ≤ al (k1.items.length + k2.items.length) := al_mono (by omega)
  have b1 := al_mod k1.items.length
  have b2 := al_mod k2.items.length
  have b3 := al_mod (k1.items.length + k2.items.length)
  have hsm := R.smod
  have i1 := ilen_mod f.kok.1
  have i2 := ilen_mod g.kok.1
  have hdl : dsize (xs ++ k1.join k2 :: ys) = dsize xs + (csize (k1.join k2) + dsize ys) := by
    rw [dsize_append, dsize_cons]
  have hkll : hdrLen P.chunks.length + ksize (xs ++ k1 :: k2 :: ys).dropLast < 256 := by
    rw [← h.eq]; exact hkl
  rw [List.dropLast_append_of_ne_nil (by simp), List.dropLast_cons_of_ne_nil (by simp), ksize_append,
      ksize_cons] at hkll
  have hkyy : ys ≠ [] → ksize (k2 :: ys).dropLast = k2.key.length + ksize ys.dropLast := by
    intro hy
    rw [List.dropLast_cons_of_ne_nil hy, ksize_cons]
  rw [eq]
  refine ⟨R.fine, R.leaf, R.right, ?_, by simp, ?_, ?_, ?_, ?_, ?_, R.smod, R.slim, ?_, ?_, ?_, ?_, ?_, ?_⟩
  · simp only; rw [hn']; omega
  · simp only
    rw [R.items, icount_append, icount_cons, hci, List.length_append]
    omega
  · simp only
    rw [hn', ksize_append, ksize_cons, hck]
    omega
  · simp only
    rw [hdl, hcs]
    omega
  · simp only
    rw [hdl, hcs]
    omega
  · simp only
    rw [hn', ksize_append, ksize_cons, hck]
    omega
  · simp only
    rw [Aligned.append, Aligned.cons, hci, hck]
    refine ⟨f.xok, ⟨?_, hgk4, g.kok.2.2⟩, g.yok⟩
    intro it hi
    rcases List.mem_append.mp hi with hi | hi
    · exact f.kok.1 it hi
    · exact g.kok.1 it hi
  · simp only
    rw [hn', List.dropLast_append_of_ne_nil (by simp), ksize_append]
    by_cases hy : ys = []
    · subst hy
      have e : ksize [k1.join k2].dropLast = 0 := rfl
      rw [e]
      omega
    · have := hkyy hy
      rw [List.dropLast_cons_of_ne_nil hy, ksize_cons, hck]
      omega
  · intro hr
    have := R.kright hr
    simp only
    rw [h.eq] at this
    rcases List.eq_nil_or_concat ys with rfl | ⟨zs, z, rfl⟩
    · have e : lastKey (xs ++ [k1.join k2]) = lastKey (xs ++ [k1, k2]) := by
        unfold lastKey
        rw [List.getLast?_concat]
        have : xs ++ [k1, k2] = (xs ++ [k1]) ++ [k2] := by simp
        rw [this, List.getLast?_concat]
        rfl
      rw [e]
      exact this
    · have e : lastKey (xs ++ k1.join k2 :: (zs ++ [z])) = lastKey (xs ++ k1 :: k2 :: (zs ++ [z])) := by
        unfold lastKey
        have a1 : xs ++ k1.join k2 :: (zs ++ [z]) = (xs ++ k1.join k2 :: zs) ++ [z] := by simp
        have a2 : xs ++ k1 :: k2 :: (zs ++ [z]) = (xs ++ k1 :: k2 :: zs) ++ [z] := by simp
        rw [a1, a2, List.getLast?_concat, List.getLast?_concat]
      simp only [List.concat_eq_append] at this ⊢
      rw [e]
      exact this
  · simp only
    rw [hn', DescsAt.append, Nat.zero_add, Nat.zero_add]
    have hpe : hdrLen (P.chunks.length - 1) = hdrLen P.chunks.length - hs := by omega
    refine ⟨?_, ?_, ?_⟩
    · refine f.dxs.shift f.xok R.smod hz4 ?_ ?_
      · intro hx
        have := ksize_dropLast hx
        omega
      · intro j p o q fx fl hj hp4 hq4 hpd hoc hq hfl hd
        rw [Nat.zero_add] at hd ⊢
        have := M.dlow j _ _ _ fx fl (by omega) (by omega) (by omega) (by omega) (by omega) (by omega) hq hfl hd
        rw [this]
        simp only [Desc.mk.injEq, and_true, true_and]
        omega
    · rw [M.dmid]
      simp only [Chunk.join, Desc.mk.injEq, and_true, true_and]
      omega
    · refine gdys.shift g.yok ?_ ?_ ?_ ?_
      · omega
      · omega
      · intro hy
        have := hkyy hy
        omega
      · intro j p o q fx fl hj hp4 hq4 hpd hoc hq hfl hd
        have := M.dhigh (xs.length + 1 + 1 + j) _ _ _ fx fl (by omega) (by omega) (by omega) (by omega) (by omega)
          (by omega) (by omega) (by omega) hq hfl hd
        have ej : xs.length + 1 + 1 + j - 1 = xs.length + 1 + j := by omega
        rw [ej] at this
        rw [this, hcs, hci, hck, List.length_append]
        simp only [Desc.mk.injEq, and_true, true_and]
        omega
  · simp only
    have hk := R.keys
    rw [hn', kdata_append, kdata_cons, At.append, hck, kdata_length]
    obtain ⟨z, hz⟩ : ∃ x, x = hdrLen P.chunks.length := ⟨_, rfl⟩
    rw [← hz] at hk
    rw [h.eq, kdata_append, kdata_cons, kdata_cons, At.append, At.append, kdata_length] at hk
    have hpe : hdrLen (P.chunks.length - 1) = hdrLen P.chunks.length - hs := by omega
    rw [hpe]
    subst hz
    refine ⟨hk.1.frame fun i hi => ?_, hk.2.2.frame fun i hi => ?_⟩
    · rw [kdata_length] at hi
      exact M.keys1 i hi
    · rw [List.length_append, kdata_length] at hi
      exact M.keys2 i hi
  · simp only
    rw [ChunksAt.append]
    refine ⟨f.before.same M.low, ?_, ?_⟩
    · have h1 := f.chunk
      have h2 := gchunk
      unfold ChunkAt at h1 h2 ⊢
      rw [hci, List.length_append, iarr_append, idata_append, At.append, At.append, iarr_length, idata_length]
      refine ⟨⟨?_, ?_⟩, ?_, ?_⟩
      · have := iarr_shift (m' := m) (a' := P.start + dsize xs)
          (up := al (k1.items.length + k2.items.length) - al k1.items.length) (dn := 0) h1.1 (by omega) (by omega) M.arr1
        have e : al k1.items.length + (al (k1.items.length + k2.items.length) - al k1.items.length) - 0 =
          al (k1.items.length + k2.items.length) := by omega
        rw [e] at this
        exact this
      · have := iarr_shift (m' := m) (a' := P.start + dsize xs + k1.items.length)
          (up := al (k1.items.length + k2.items.length) + ilen k1.items) (dn := al k2.items.length) h2.1
          (by omega) (by omega) (fun i hi => by
            have := M.arr2 i hi
            rw [this]
            congr 2
            omega)
        have e : al k2.items.length + (al (k1.items.length + k2.items.length) + ilen k1.items) - al k2.items.length =
          al (k1.items.length + k2.items.length) + ilen k1.items := by omega
        rw [e] at this
        exact this
      · refine h1.2.frame fun i hi => ?_
        rw [idata_length] at hi
        exact M.data1 i hi
      · refine h2.2.frame fun i hi => ?_
        rw [idata_length] at hi
        rw [M.data2 i (by omega)]
        congr 1
        omega
    · refine gafter.frame fun i hi => ?_
      have := M.data2 (ilen k2.items + i) (by omega)
      have e1 : P.start + dsize xs + csize (k1.join k2) + i =
        P.start + dsize xs + al (k1.items.length + k2.items.length) + ilen k1.items + (ilen k2.items + i) := by omega
      rw [e1, this]
      congr 1
      omega

theorem joinAt_mid (xs : List Chunk) (a b : Chunk) (ys : List Chunk) :
    joinAt xs.length (xs ++ a :: b :: ys) = xs ++ a.join b :: ys := by
  induction xs with
  | nil => rfl
  | cons x xs ih => simp only [List.cons_append, List.length_cons, joinAt, ih]

theorem eraseIdx_mid {α} (l r : List α) (x : α) : (l ++ x :: r).eraseIdx l.length = l ++ r := by
  induction l with
  | nil => rfl
  | cons a l ih => simp [ih]

theorem Rep.doDelete {s P c i} (R : Rep s P) (hc : c < P.chunks.length) (hi : i < (P.chunk c).items.length) :
    Rep (s.deleteItem { s.fill c with item := i }) (P.delete c i) := by
  obtain ⟨xs, ys, h⟩ := chunkSplit hc
  obtain ⟨l, o, r, hk, hl⟩ := chunk_items_split hi
  have f := R.facts h
  have hlen := h.len
  have R1 := R.erase h hk
  rw [hl, hlen] at R1
  have hcount : ({ s.fill c with item := i } : Loc).count = (P.chunk c).items.length := by
    have := f.fill
    rw [hlen] at this
    rw [this]
  have hchunk : ({ s.fill c with item := i } : Loc).chunk = c := by
    have := f.fill
    rw [hlen] at this
    rw [this]
  have her : (P.chunk c).items.eraseIdx i = l ++ r := by rw [hk, ← hl, eraseIdx_mid]
  have hcnt := R1.count
  rw [Pg.deleteItem_eq, hcount, hchunk]
  unfold Page.delete
  simp only
  rw [h.upd_eq, her]
  obtain ⟨s1, hs1⟩ : ∃ x, x = s.eraseItem { s.fill c with item := i } := ⟨_, rfl⟩
  rw [← hs1] at R1 hcnt ⊢
  by_cases h1 : (P.chunk c).items.length = 1
  · rw [if_pos (by omega), if_pos h1]
    by_cases h2 : 0 < c
    · rw [if_pos h2]
      rcases List.eq_nil_or_concat xs with hx | ⟨zs, z, hx⟩
      · rw [hx] at hlen; simp at hlen; omega
      · rw [List.concat_eq_append] at hx
        subst hx
        have hz : zs.length = c - 1 := by simp at hlen; omega
        have e : ∀ k : Chunk, (zs ++ [z]) ++ k :: ys = zs ++ z :: k :: ys := by intro k; simp
        rw [e] at R1 ⊢
        have R2 := R1.merge (c := c - 1) ⟨rfl, hz⟩
        rw [← hz, joinAt_mid, hz]
        exact R2
    · rw [if_neg h2]
      have hx : xs = [] := List.length_eq_zero_iff.mp (by omega)
      subst hx
      have hc0 : c = 0 := by omega
      subst hc0
      cases ys with
      | nil =>
        rw [if_neg (by rw [hcnt]; simp)]
        exact R1
      | cons y ys =>
        rw [if_pos (by rw [hcnt]; simp)]
        exact R1.merge (c := 0) (xs := []) ⟨rfl, rfl⟩
  · rw [if_neg (by omega), if_neg h1]
    exact R1

end Verif.PageChunks
