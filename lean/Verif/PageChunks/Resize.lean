import Verif.PageChunks.Insert

/-! # Bytes of B-tree pages: replacement of an item -/

namespace Verif.PageChunks

/-- The next item. -/
theorem Rep.nextPtr {s P c xs k ys l o r} (R : Rep s P) (h : ChunkSplit P c xs k ys)
    (hk : k.items = l ++ o :: r) :
    (if l.length + 1 < k.items.length then s.item { s.fill xs.length with item := l.length + 1 }
      else P.start + dsize xs + csize k) =
      P.start + dsize xs + al k.items.length + ilen l + o.words.length := by
  have hk' : k.items = (l ++ [o]) ++ r := by rw [hk]; simp
  have := R.itemPtr h hk'
  have e : (l ++ [o]).length = l.length + 1 := by simp
  have e2 : ilen (l ++ [o]) = ilen l + o.words.length := by rw [ilen_append]; simp [ilen]
  rw [e, e2] at this
  rw [this]
  omega

theorem Pg.resizeItem_eq (s : Pg) (L : Loc) (n old next : Nat) (ho : s.itemSize L = old) (hne : n ≠ old)
    (hnext : (if L.item + 1 < L.count then s.item { L with item := L.item + 1 } else L.addr + L.size) = next)
    (h1 : L.addr + L.count + old ≤ next) (h2 : next ≤ s.dataSize) (h3 : s.dataSize + n ≤ 4096 + old)
    (h4 : 28 ≤ L.addr) (h5 : 28 + 2 * s.chunksCount ≤ L.addr) (h6 : s.dataSize ≤ 4096) :
    ∃ m1 m2 m3 : Nat → Nat,
      m1 = mMove s.mem (next + n - old) next (s.dataSize - next) ∧
      m2 = dMap m1 (L.chunk + 1) (s.chunksCount - (L.chunk + 1)) (fun i =>
        { mdesc m1 i with loc := shiftLoc (mdesc m1 i).loc n old }) ∧
      m3 = (fun x => if L.addr + (L.item + 1) ≤ x ∧ x < L.addr + (L.item + 1) + (L.count - (L.item + 1)) then
        shiftW (m2 x) n old else m2 x) ∧
      s.resizeItem L n = { s with mem := m3, dataSize := s.dataSize + n - old } := by
  have hdo : descOff = 28 := rfl
  have hbl : blck = 4096 := rfl
  refine ⟨_, _, _, rfl, rfl, rfl, ?_⟩
  unfold Pg.resizeItem
  simp only
  have hb : decide (s.dataSize < next ∨ blck < s.dataSize + n - old) = false := by simp; omega
  rw [ho, if_neg hne, hnext, hb]
  rw [Pg.move_eq _ (next + n - old) next s.dataSize (by omega)]
  rw [loop_desc _ _ (fun d => { d with loc := shiftLoc d.loc n old }) _ (by simp only; omega)]
  rw [loop_put L.addr _ _ (fun w => shiftW w n old) _ (by omega)]
  simp only [Bool.or_false]

theorem ChunkSplit.rfl' {P c xs k ys} (h : ChunkSplit P c xs k ys) :
    ({ P with chunks := xs ++ k :: ys } : Page) = P := by rw [← h.eq]

/-- A resize keeps what fits of the item. -/
theorem Rep.resize {s P c xs k ys l o r n} (R : Rep s P) (h : ChunkSplit P c xs k ys)
    (hk : k.items = l ++ o :: r) (hn4 : n % 4 = 0) (hn : 4 ≤ n)
    (hfit : s.dataSize + n ≤ 4096 + o.words.length) :
    ∃ w : List Nat, w.length = n ∧ (∀ i, i < n → i < o.words.length → w[i]? = o.words[i]?) ∧
      Rep (s.resizeItem { s.fill xs.length with item := l.length } n)
        { P with chunks := xs ++ { k with items := l ++ ⟨o.flag, w⟩ :: r } :: ys } := by
  by_cases hne : n = o.words.length
  · refine ⟨o.words, hne.symm, fun _ _ _ => rfl, ?_⟩
    have : s.resizeItem { s.fill xs.length with item := l.length } n = s := by
      unfold Pg.resizeItem
      rw [(R.item h hk).size]
      simp only [hne, if_true]
    rw [this]
    have e : ({ k with items := l ++ ⟨o.flag, o.words⟩ :: r } : Chunk) = k := by
      have : (⟨o.flag, o.words⟩ : Item) = o := rfl
      rw [this, ← hk]
    rw [e, h.rfl']
    exact R
  have f := R.facts h
  have fi := R.item h hk
  have hnx := R.nextPtr h hk
  have hnn : k.items.length = l.length + 1 + r.length := by rw [hk]; simp; omega
  have hlen : P.chunks.length = xs.length + 1 + ys.length := by rw [h.eq]; simp; omega
  have hil : ilen k.items = ilen l + (o.words.length + ilen r) := by rw [hk, ilen_append, ilen_cons]
  have hkf := R.kfit
  have hds := f.dend
  have hhl := hdrLen_le P.chunks.length
  have hdo : descOff = 28 := rfl
  have hc := h.len
  have hcs := csize_eq k
  have hcnt := f.cnt
  have hl1 := limit_ge P.leaf
  have hl2 := R.slim
  have hal := al_le k.items.length
  have hfx := f.fit
  have o4 := (f.kok.1 o (by rw [hk]; simp)).1
  rw [f.fill] at fi hnx ⊢
  obtain ⟨m1, m2, m3, e1, e2, e3, eq⟩ := Pg.resizeItem_eq s
    { (⟨xs.length, 0, k.items.length, csize k, P.start + dsize xs⟩ : Loc) with item := l.length } n _ _ fi.size hne
    hnx (by simp only; omega) (by omega) hfit (by simp only; omega) (by simp only; omega) (by omega)
  simp only at e1 e2 e3 eq
  have low3 : ∀ x, x < P.start + dsize xs → m3 x = m2 x := by
    intro x hx
    rw [e3]
    simp only
    rw [if_neg (by omega)]
  have low1 : ∀ x, x < P.start + dsize xs + al k.items.length + ilen l + min n o.words.length → m1 x = s.mem x := by
    intro x h2
    rw [e1, mMove_out (by omega)]
  have hm2 : ∀ x, P.start + dsize xs ≤ x → m2 x = m1 x := by
    intro x hx
    rw [e2, dMap_out (by omega)]
  have hd1 : ∀ j, j < P.chunks.length → mdesc m1 j = mdesc s.mem j := by
    intro j hj
    exact mdesc_congr fun x h1 h2 => low1 x (by omega)
  have hd3 : ∀ j, j < P.chunks.length → mdesc m3 j = mdesc m2 j := by
    intro j hj
    exact mdesc_congr fun x h1 h2 => low3 x (by omega)
  have hhigh : ∀ x, P.start + dsize xs + al k.items.length ≤ x → m3 x = m1 x := by
    intro x hx
    rw [e3]
    simp only
    rw [if_neg (by omega), hm2 x (by omega)]
  obtain ⟨w, hw⟩ : ∃ w, w = (List.range n).map fun i => m3 (P.start + dsize xs + al k.items.length + ilen l + i) :=
    ⟨_, rfl⟩
  have hwl : w.length = n := by rw [hw]; simp
  have hwat : At m3 (P.start + dsize xs + al k.items.length + ilen l) w := by
    intro i v hi
    have hi' := (List.getElem?_eq_some_iff.mp hi).1
    rw [hw, List.getElem?_map, List.getElem?_range (by omega)] at hi
    simpa using hi
  have hwo : ∀ i, i < n → i < o.words.length → w[i]? = o.words[i]? := by
    intro i h1 h2
    rw [List.getElem?_eq_getElem (by omega), List.getElem?_eq_getElem h2, ← hwat.getElem (by omega),
      ← fi.mem.getElem h2, hhigh _ (by omega), low1 _ (by omega)]
  refine ⟨w, hwl, hwo, ?_⟩
  rw [eq]
  have hn' : (l ++ (⟨o.flag, w⟩ : Item) :: r).length = k.items.length := by simp; omega
  have hil' : ilen (l ++ (⟨o.flag, w⟩ : Item) :: r) = ilen l + (n + ilen r) := by
    rw [ilen_append, ilen_cons, hwl]
  have hcs' : csize { k with items := l ++ (⟨o.flag, w⟩ : Item) :: r } =
      al k.items.length + (ilen l + (n + ilen r)) := by
    rw [csize_eq]
    simp only
    rw [hn', hil']
  have hchunk := f.chunk
  unfold ChunkAt at hchunk
  obtain ⟨A, hA⟩ : ∃ A, A = al k.items.length := ⟨_, rfl⟩
  have hA4 : A % 4 = 0 := by rw [hA]; exact al_mod _
  rw [← hA] at hchunk
  rw [hk, iarr_append, idata_append, At.append, At.append, iarr_length, idata_length, iarr, At.cons, idata_cons,
    At.append] at hchunk
  obtain ⟨⟨ca1, cax, ca2⟩, cd1, cdx, cd2⟩ := hchunk
  subst hA
  refine R.update h R.fine rfl rfl rfl rfl ?_ ?_ ?_ rfl rfl ?_ ?_ ?_ ?_ ?_ ?_ ?_
  · simp only; rw [hn']
  · rw [hcs', hcs]; simp only; omega
  · simp only; omega
  · intro x hx
    simp only [List.mem_append, List.mem_cons] at hx
    rcases hx with hx | hx | hx
    · exact f.kok.1 x (by rw [hk]; simp [hx])
    · rw [hx]
      unfold Item.ok
      simp only
      rw [hwl]
      exact ⟨hn4, hn⟩
    · exact f.kok.1 x (by rw [hk]; simp [hx])
  · intro x h1 h2
    simp only
    rw [low3 x h2, e2, dMap_out (by omega), low1 x (by omega)]
  · intro j hj
    simp only
    rw [hd3 j (by omega), e2, mdesc_dMap_out (by omega), hd1 j (by omega)]
  · simp only
    rw [hd3 c (by omega), e2, mdesc_dMap_out (by omega), hd1 c (by omega)]
    have hd := f.desc
    rw [Pg.desc_eq, hc] at hd
    rw [hd]
  · intro j p q' q fx fl h1 h2 h3 h4' h5 h6 h7 h8 h9 h10 h11 hd
    simp only
    rw [hd3 j h2, e2, mdesc_dMap_in (by omega), hd1 j h2, hd, hcs', hcs, hn']
    rw [hcs', hcs] at h7
    unfold Desc.cut shiftLoc
    simp only [Desc.mk.injEq, true_and]
    refine ⟨?_, ?_, ?_, ?_⟩ <;> omega
  · simp only
    unfold ChunkAt
    rw [hn', iarr_append, idata_append, At.append, At.append, iarr, idata_cons, At.cons, At.append,
      iarr_length, idata_length]
    simp only
    rw [hwl]
    have alow : ∀ i, i < l.length + 1 → m3 (P.start + dsize xs + i) = s.mem (P.start + dsize xs + i) := by
      intro i hi
      rw [e3]
      simp only
      rw [if_neg (by omega), hm2 _ (by omega), low1 _ (by omega)]
    refine ⟨⟨?_, ?_, ?_⟩, ?_, hwat, ?_⟩
    · refine ca1.frame fun i hi => ?_
      rw [iarr_length] at hi
      exact alow i (by omega)
    · rw [alow _ (by omega), cax]
    · have := iarr_shift (m' := m3) (a' := P.start + dsize xs + l.length + 1) (up := n) (dn := o.words.length) ca2
        (by omega) (by omega) (fun i hi => by
        rw [e3]
        simp only
        rw [if_pos (by omega), hm2 _ (by omega), low1 _ (by omega)])
      have e : al k.items.length + ilen l + o.words.length + n - o.words.length = al k.items.length + ilen l + n := by omega
      rw [e] at this
      exact this
    · refine cd1.frame fun i hi => ?_
      rw [idata_length] at hi
      rw [hhigh _ (by omega), low1 _ (by omega)]
    · refine cd2.frame fun i hi => ?_
      rw [idata_length] at hi
      rw [hhigh _ (by omega), e1, mMove_in (by omega)]
      congr 1
      omega
  · intro i hi
    simp only
    rw [hcs', hcs, hhigh _ (by omega), e1, mMove_in (by omega)]
    congr 1
    omega

end Verif.PageChunks
