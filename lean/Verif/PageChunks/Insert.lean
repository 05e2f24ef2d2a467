import Verif.PageChunks.Update

/-! # Bytes of B-tree pages: insertion -/

namespace Verif.PageChunks

theorem shiftW_word {off f up dn} (h : off + up < 8192) (h2 : dn ≤ off + up) :
    shiftW (word off f) up dn = word (off + up - dn) f := by
  unfold shiftW word
  cases f <;> simp <;> omega

theorem iarr_shift {m m' : Nat → Nat} {a a' off up dn : Nat} {l : List Item} (h : At m a (iarr off l))
    (hb : off + ilen l + up < 8192) (hd : dn ≤ off + up)
    (e : ∀ i, i < l.length → m' (a' + i) = shiftW (m (a + i)) up dn) :
    At m' a' (iarr (off + up - dn) l) := by
  induction l generalizing a a' off with
  | nil => exact At.nil _ _
  | cons x l ih =>
    rw [iarr, At.cons] at *
    rw [ilen_cons] at hb
    refine ⟨?_, ?_⟩
    · have := e 0 (by simp)
      rw [Nat.add_zero, Nat.add_zero, h.1, shiftW_word (by omega) hd] at this
      exact this
    · have := ih (a' := a' + 1) h.2 (by omega) (by omega) (fun i hi => by
        have := e (i + 1) (by simp; omega)
        rw [Nat.add_assoc, Nat.add_assoc, Nat.add_comm 1 i]
        exact this)
      rw [← Nat.sub_add_comm (by omega), Nat.add_right_comm]
      exact this

theorem At.iarr_lt {m : Nat → Nat} {a off : Nat} {l : List Item} (h : At m a (iarr off l))
    (hb : off + ilen l < 8192) : ∀ i, i < l.length → m (a + i) < 32768 := by
  induction l generalizing a off with
  | nil => intro i hi; simp at hi
  | cons x l ih =>
    rw [iarr, At.cons] at h
    rw [ilen_cons] at hb
    intro i hi
    match i with
    | 0 =>
      rw [Nat.add_zero, h.1]
      unfold word
      split <;> omega
    | i + 1 =>
      have := ih h.2 (by omega) i (by simpa using hi)
      rw [← Nat.add_assoc, Nat.add_right_comm]
      exact this

theorem shiftW_zero {w : Nat} (h : w < 65536) : shiftW w 0 0 = w := by
  unfold shiftW
  omega

/-- Where everything is after an insertion. -/
structure Inserted (s s' : Pg) (P : Page) (xs : List Chunk) (l r : List Item) (ys : List Chunk) (size sh : Nat) :
    Prop where
  low : ∀ x, hdrLen P.chunks.length ≤ x → x < P.start + dsize xs → s'.mem x = s.mem x
  dlow : ∀ j, j ≤ xs.length → mdesc s'.mem j = mdesc s.mem j
  dhigh : ∀ j, xs.length < j → j < P.chunks.length → mdesc s'.mem j =
    Desc.cut { mdesc s.mem j with
      loc := shiftLoc (mdesc s.mem j).loc (sh + size) 0
      off := (mdesc s.mem j).off + 1 }
  arr1 : ∀ i, i < l.length → s'.mem (P.start + dsize xs + i) = shiftW (s.mem (P.start + dsize xs + i)) sh 0
  arrx : s'.mem (P.start + dsize xs + l.length) = word (al (l.length + r.length + 1) + ilen l) false
  arr2 : ∀ i, i < r.length → s'.mem (P.start + dsize xs + (l.length + 1 + i)) =
    shiftW (s.mem (P.start + dsize xs + (l.length + i))) (sh + size) 0
  data1 : ∀ i, i < ilen l → s'.mem (P.start + dsize xs + al (l.length + r.length + 1) + i) =
    s.mem (P.start + dsize xs + al (l.length + r.length) + i)
  data2 : ∀ i, i < ilen r + dsize ys →
    s'.mem (P.start + dsize xs + al (l.length + r.length + 1) + ilen l + size + i) =
      s.mem (P.start + dsize xs + al (l.length + r.length) + ilen l + i)
  rest : s' = { s with mem := s'.mem, itemsCount := s.itemsCount + 1, dataSize := s.dataSize + (sh + size) }

theorem Rep.itemPtr {s P c xs k ys l r} (R : Rep s P) (h : ChunkSplit P c xs k ys) (hk : k.items = l ++ r) :
    (if l.length < k.items.length then s.item { s.fill xs.length with item := l.length }
      else P.start + dsize xs + csize k) = P.start + dsize xs + al k.items.length + ilen l := by
  cases r with
  | nil =>
    rw [if_neg (by rw [hk]; simp), csize_eq]
    have : ilen k.items = ilen l := by rw [hk, List.append_nil]
    omega
  | cons it r =>
    rw [if_pos (by rw [hk]; simp), (R.item h hk).addr]

/-- `Pg.insertItem` as a function on memory. -/
theorem Pg.insertItem_eq (s : Pg) (L : Loc) (size ip sh : Nat)
    (hip : (if L.item < L.count then s.item L else L.addr + L.size) = ip)
    (hsh : al (L.count + 1) - al L.count = sh) (hi : L.item ≤ L.count)
    (h1 : L.addr + al L.count ≤ ip) (h2 : ip ≤ s.dataSize) (h3 : s.dataSize + (sh + size) ≤ 4096)
    (h4 : 28 ≤ L.addr) (h5 : 28 + 2 * s.chunksCount ≤ L.addr) :
    ∃ m1 m2 m3 m4 m5 : Nat → Nat,
      m1 = mMove s.mem (ip + (sh + size)) ip (s.dataSize - ip) ∧
      m2 = dMap m1 (L.chunk + 1) (s.chunksCount - (L.chunk + 1)) (fun i =>
        { mdesc m1 i with loc := shiftLoc (mdesc m1 i).loc (sh + size) 0, off := (mdesc m1 i).off + 1 }) ∧
      m3 = (if sh ≠ 0 then fun x => if L.addr ≤ x ∧ x < L.addr + L.item then
          shiftW (mMove m2 (L.addr + al L.count + sh) (L.addr + al L.count) (ip - (L.addr + al L.count)) x) sh 0
        else mMove m2 (L.addr + al L.count + sh) (L.addr + al L.count) (ip - (L.addr + al L.count)) x
        else m2) ∧
      m4 = (fun x => if L.addr + L.item < x ∧ x ≤ L.addr + L.count then shiftW (m3 (x - 1)) (sh + size) 0
        else m3 x) ∧
      m5 = mPut m4 (L.addr + L.item) (2 * (ip - L.addr + sh) % 65536) ∧
      s.insertItem L size =
        { s with mem := m5, itemsCount := s.itemsCount + 1, dataSize := s.dataSize + (sh + size) } := by
  have hdo : descOff = 28 := rfl
  have hbl : blck = 4096 := rfl
  have hal1 := al_le L.count
  have hal2 := al_le (L.count + 1)
  refine ⟨_, _, _, _, _, rfl, rfl, rfl, rfl, rfl, ?_⟩
  unfold Pg.insertItem
  simp only
  rw [hip, hsh, Pg.move_eq s (ip + (sh + size)) ip s.dataSize (by omega)]
  rw [loop_desc _ _ (fun d => { d with loc := shiftLoc d.loc (sh + size) 0, off := d.off + 1 }) _ (by
    simp only; omega)]
  by_cases h0 : sh ≠ 0
  · rw [if_pos h0, if_pos h0, Pg.move_eq _ _ _ _ (by omega)]
    rw [loop_put L.addr _ _ (fun w => shiftW w sh 0) _ (by omega)]
    simp only
    rw [loop_put_prev L.addr _ _ (fun w => shiftW w (sh + size) 0) _ (by omega) (by omega)]
    rw [Pg.put_eq _ _ _ (by omega)]
    have e : L.count - (L.count - L.item) = L.item := by omega
    simp only [e, Nat.add_zero]
  · rw [if_neg h0, if_neg h0]
    rw [loop_put_prev L.addr _ _ (fun w => shiftW w (sh + size) 0) _ (by omega) (by omega)]
    rw [Pg.put_eq _ _ _ (by omega)]
    have e : L.count - (L.count - L.item) = L.item := by omega
    simp only [e]

theorem Rep.insertItem {s P c xs k ys l r size} (R : Rep s P) (h : ChunkSplit P c xs k ys)
    (hk : k.items = l ++ r)
    (hfit : s.dataSize + (al (k.items.length + 1) - al k.items.length) + size ≤ 4096) :
    Inserted s (s.insertItem { s.fill xs.length with item := l.length } size) P xs l r ys size
      (al (k.items.length + 1) - al k.items.length) := by
  have f := R.facts h
  have hip := R.itemPtr h hk
  have hnn : k.items.length = l.length + r.length := by rw [hk]; simp
  have hlen : P.chunks.length = xs.length + 1 + ys.length := by rw [h.eq]; simp; omega
  have hkf := R.kfit
  have hds := f.dend
  have hcs := csize_eq k
  have hil : ilen k.items = ilen l + ilen r := by rw [hk, ilen_append]
  have hhl := hdrLen_le P.chunks.length
  have hcnt := R.count
  have hdo : descOff = 28 := rfl
  have hl1 := limit_ge P.leaf
  have hl2 := R.slim
  have hal1 := al_le k.items.length
  have hal2 := al_le (k.items.length + 1)
  have hal3 : al k.items.length ≤ al (k.items.length + 1) := al_mono (by omega)
  have hsh0 : al (k.items.length + 1) - al k.items.length ≠ 0 → al k.items.length = k.items.length := by
    intro h
    unfold al at h ⊢
    omega
  rw [f.fill] at hip ⊢
  rw [hnn] at hip hsh0 hal1 hal2 hal3 hcs hfit ⊢
  obtain ⟨a, ha⟩ : ∃ a, a = P.start + dsize xs := ⟨_, rfl⟩
  obtain ⟨A, hA⟩ : ∃ A, A = al (l.length + r.length) := ⟨_, rfl⟩
  obtain ⟨A', hA'⟩ : ∃ A, A = al (l.length + r.length + 1) := ⟨_, rfl⟩
  obtain ⟨sh, hsh⟩ : ∃ x, x = al (l.length + r.length + 1) - al (l.length + r.length) := ⟨_, rfl⟩
  rw [← ha, ← hA] at hip
  rw [← ha, ← hsh]
  rw [← hsh] at hfit hsh0
  obtain ⟨m1, m2, m3, m4, m5, e1, e2, e3, e4, e5, eq⟩ := Pg.insertItem_eq s
    { (⟨xs.length, 0, l.length + r.length, csize k, a⟩ : Loc) with item := l.length } size (a + A + ilen l) sh
    hip hsh.symm (by simp) (by simp only; omega) (by omega) (by omega) (by simp only; omega) (by simp only; omega)
  simp only at e1 e2 e3 e4 e5 eq
  rw [← hA] at e3 hal1 hal3 hcs hsh0 hsh
  rw [← hA'] at hal2 hal3 hsh
  -- memory below the chunk
  have low5 : ∀ x, x < a → m5 x = m2 x := by
    intro x hx
    rw [e5, mPut_ne (by omega), e4]
    simp only
    rw [if_neg (by omega), e3]
    split
    · simp only
      rw [if_neg (by omega), mMove_out (by omega)]
    · rfl
  have low2 : ∀ x, hdrLen P.chunks.length ≤ x → x < a → m2 x = s.mem x := by
    intro x h1 h2
    rw [e2, dMap_out (by omega), e1, mMove_out (by omega)]
  have low1 : ∀ x, x < a → m1 x = s.mem x := by
    intro x h2
    rw [e1, mMove_out (by omega)]
  have hm2 : ∀ x, a ≤ x → m2 x = m1 x := by
    intro x hx
    rw [e2, dMap_out (by omega)]
  have hd1 : ∀ j, j < P.chunks.length → mdesc m1 j = mdesc s.mem j := by
    intro j hj
    exact mdesc_congr fun x h1 h2 => low1 x (by omega)
  have hd5 : ∀ j, j < P.chunks.length → mdesc m5 j = mdesc m2 j := by
    intro j hj
    exact mdesc_congr fun x h1 h2 => low5 x (by omega)
  have arr3 : ∀ i, i < l.length → m3 (a + i) = shiftW (s.mem (a + i)) sh 0 := by
    intro i hi
    rw [e3]
    split
    · rename_i hne
      simp only
      rw [if_pos (by omega), mMove_out (by omega), hm2 _ (by omega), e1, mMove_out (by omega)]
    · rename_i hne
      have hlt := f.chunk.1.iarr_lt (by rw [hnn, ← hA]; omega) i (by omega)
      rw [← ha] at hlt
      have h0 : sh = 0 := by omega
      rw [h0, shiftW_zero (by omega), hm2 _ (by omega), e1, mMove_out (by omega)]
  have arr3' : ∀ i, i < r.length → m3 (a + (l.length + i)) = s.mem (a + (l.length + i)) := by
    intro i hi
    rw [e3]
    split
    · rename_i hne
      simp only
      rw [if_neg (by omega), mMove_out (by omega), hm2 _ (by omega), e1, mMove_out (by omega)]
    · rw [hm2 _ (by omega), e1, mMove_out (by omega)]
  rw [eq]
  refine ⟨?_, ?_, ?_, ?_, ?_, ?_, ?_, ?_, rfl⟩ <;> simp only [← ha, ← hA, ← hA']
  · intro x h1 h2
    rw [low5 x h2, low2 x h1 h2]
  · intro j hj
    rw [hd5 j (by omega), e2, mdesc_dMap_out (by omega), hd1 j (by omega)]
  · intro j h1 h2
    rw [hd5 j (by omega), e2, mdesc_dMap_in (by omega), hd1 j (by omega)]
  · intro i hi
    rw [e5, mPut_ne (by omega), e4]
    simp only
    rw [if_neg (by omega), arr3 i hi]
  · rw [e5, mPut_self]
    unfold word
    simp only [Bool.false_eq_true, if_false, Nat.add_zero]
    omega
  · intro i hi
    rw [e5, mPut_ne (by omega), e4]
    simp only
    have : a + (l.length + 1 + i) - 1 = a + (l.length + i) := by omega
    rw [if_pos (by omega), this, arr3' i hi]
  · intro i hi
    rw [e5, mPut_ne (by omega), e4]
    simp only
    rw [if_neg (by omega), e3]
    split
    · simp only
      rw [if_neg (by omega), mMove_in (by omega), hm2 _ (by omega), e1, mMove_out (by omega)]
      congr 1
      omega
    · rw [hm2 _ (by omega), e1, mMove_out (by omega)]
      congr 1
      omega
  · intro i hi
    rw [e5, mPut_ne (by omega), e4]
    simp only
    rw [if_neg (by omega), e3]
    split
    · simp only
      rw [if_neg (by omega), mMove_out (by omega), hm2 _ (by omega), e1, mMove_in (by omega)]
      congr 1
      omega
    · rw [hm2 _ (by omega), e1, mMove_in (by omega)]
      congr 1
      omega

theorem itemSet_word {off : Nat} {f g : Bool} (h : off < 8192) : itemSet (word off f) g = word off g := by
  unfold itemSet word
  cases f <;> cases g <;> simp <;> omega

theorem word_inj {off off' : Nat} {f : Bool} (h : off = off') : word off f = word off' f := by rw [h]

/-- Writing a tuple to an item. -/
theorem Pg.writeItem_eq (s : Pg) (L : Loc) (words : List Nat) (f g : Bool) (off : Nat)
    (he : s.mem (L.addr + L.item) = word off g) (h1 : off < 8192) (h2 : 28 ≤ L.addr)
    (h3 : L.item < off) (h4 : L.addr + off + words.length ≤ 4096) :
    s.writeItem L words f =
      { s with mem := mPut (mCopy s.mem (L.addr + off) words) (L.addr + L.item) (word off f) } := by
  have hdo : descOff = 28 := rfl
  have hbl : blck = 4096 := rfl
  unfold Pg.writeItem Pg.item
  simp only
  rw [he, itemOff_word _ h1, Pg.copyIn_eq _ _ _ (by omega)]
  simp only
  rw [mCopy_out (by omega), he, itemSet_word h1, Pg.put_eq _ _ _ (by omega)]

/-- Clearing the mark of a chunk. -/
theorem Rep.setFixed {s P c xs k ys} (R : Rep s P) (h : ChunkSplit P c xs k ys) (b : Bool) :
    Rep { s with mem := dSet s.mem c { mdesc s.mem c with fixed := b } }
      { P with chunks := xs ++ { k with fixed := b } :: ys } := by
  have f := R.facts h
  have hdo : descOff = 28 := rfl
  have hhl := hdrLen_le P.chunks.length
  have hlen : P.chunks.length = xs.length + 1 + ys.length := by rw [h.eq]; simp; omega
  have hc := h.len
  have hkf := R.kfit
  have hcs : csize { k with fixed := b } = csize k := rfl
  have low : ∀ x, hdrLen P.chunks.length ≤ x →
      dSet s.mem c { mdesc s.mem c with fixed := b } x = s.mem x := by
    intro x hx
    exact dSet_out (by omega)
  refine R.update h R.fine rfl rfl rfl rfl rfl rfl (by have := R.fit; have := R.dend; simp only; omega) rfl rfl
    f.kok.1 (fun x h1 _ => low x h1) ?_ ?_ ?_ ?_ ?_
  · intro j hj
    exact mdesc_dSet_ne (by omega)
  · simp only
    rw [mdesc_dSet_self]
    have hd := f.desc
    rw [Pg.desc_eq, hc] at hd
    rw [hd]
    have h1 := R.fit
    have h2 := R.klast
    have h3 := R.icount_lt
    have h4 := f.kok.2.2
    have h5 := f.fit
    have h6 : icount P.chunks = icount xs + k.items.length + icount ys := by
      rw [h.eq, icount_append, icount_cons]; omega
    have h7 : ksize xs ≤ ksize P.chunks.dropLast := by
      rw [h.eq, List.dropLast_append_of_ne_nil (by simp), ksize_append]
      omega
    unfold Desc.cut
    simp only [Desc.mk.injEq, true_and]
    refine ⟨?_, ?_, ?_, ?_⟩ <;> omega
  · intro j p o q fx fl h1 h2 h3 h4 h5 h6 h7 h8 h9 h10 h11 hd
    simp only
    rw [mdesc_dSet_ne (by omega), hd, hcs]
    simp
  · exact f.chunk.frame fun i hi => low _ (by omega)
  · intro i hi
    rw [hcs]
    exact low _ (by omega)

theorem ChunkSplit.self (P : Page) (xs : List Chunk) (k : Chunk) (ys : List Chunk) :
    ChunkSplit { P with chunks := xs ++ k :: ys } xs.length xs k ys := ⟨rfl, rfl⟩

theorem Rep.clearFixed {s P c xs k ys} (R : Rep s P) (h : ChunkSplit P c xs k ys) (L : Loc) (hL : L.chunk = c)
    (b : Bool) : Rep (s.clearFixed L b) { P with chunks := xs ++ { k with fixed := k.fixed && b } :: ys } := by
  unfold Pg.clearFixed
  cases b with
  | true =>
    simp only [if_true, Bool.and_true]
    have : ({ P with chunks := xs ++ k :: ys } : Page) = P := by rw [← h.eq]
    have e : ({ k with fixed := k.fixed } : Chunk) = k := rfl
    rw [e, this]
    exact R
  | false =>
    have hhl := hdrLen_le P.chunks.length
    have hlen : P.chunks.length = xs.length + 1 + ys.length := by rw [h.eq]; simp; omega
    have hkf := R.kfit
    have hf := R.fit
    have hbl : blck = 4096 := rfl
    have hdo : descOff = 28 := rfl
    have hc := h.len
    simp only [Bool.false_eq_true, if_false, Bool.and_false]
    rw [Pg.setDesc_eq _ _ _ (by omega), hL]
    exact R.setFixed h false

/-- The new array and the new items after an insertion. -/
theorem Rep.insert {s P c xs k ys l r} {it : Item} (R : Rep s P) (h : ChunkSplit P c xs k ys)
    (hk : k.items = l ++ r) (hit : it.ok)
    (hfit : s.dataSize + (al (k.items.length + 1) - al k.items.length) + it.words.length ≤ 4096) :
    Rep ((s.insertItem { s.fill xs.length with item := l.length } it.words.length).writeItem
      { s.fill xs.length with item := l.length } it.words it.flag)
      { P with chunks := xs ++ { k with items := l ++ it :: r } :: ys } := by
  have I := R.insertItem h hk hfit
  have f := R.facts h
  have hnn : k.items.length = l.length + r.length := by rw [hk]; simp
  have hlen : P.chunks.length = xs.length + 1 + ys.length := by rw [h.eq]; simp; omega
  have hil : ilen k.items = ilen l + ilen r := by rw [hk, ilen_append]
  have hkf := R.kfit
  have hds := f.dend
  have hhl := hdrLen_le P.chunks.length
  have hdo : descOff = 28 := rfl
  have hc := h.len
  have hl1 := limit_ge P.leaf
  have hl2 := R.slim
  have hal2 := al_le (l.length + r.length + 1)
  have hal3 : al (l.length + r.length) ≤ al (l.length + r.length + 1) := al_mono (by omega)
  have hal4 := al_le (l.length + r.length)
  have hcs : csize k = al (l.length + r.length) + (ilen l + ilen r) := by rw [csize_eq, hnn, hil]
  have hn' : (l ++ it :: r).length = l.length + r.length + 1 := by simp; omega
  have hil' : ilen (l ++ it :: r) = ilen l + (it.words.length + ilen r) := by rw [ilen_append, ilen_cons]
  have hcs' : csize { k with items := l ++ it :: r } =
      al (l.length + r.length + 1) + (ilen l + (it.words.length + ilen r)) := by
    rw [csize_eq]
    simp only
    rw [hn', hil']
  obtain ⟨h4, hs⟩ := hit
  have hchunk := f.chunk
  unfold ChunkAt at hchunk
  rw [hnn, hk, iarr_append, idata_append, At.append, At.append, iarr_length, idata_length] at hchunk
  obtain ⟨⟨ca1, ca2⟩, cd1, cd2⟩ := hchunk
  rw [hnn] at I hfit
  rw [hcs] at hds
  obtain ⟨s', hs'⟩ : ∃ x, x = s.insertItem { s.fill xs.length with item := l.length } it.words.length := ⟨_, rfl⟩
  rw [← hs'] at I ⊢
  obtain ⟨low, dlow, dhigh, arr1, arrx, arr2, data1, data2, rest⟩ := I
  have ef := f.fill
  rw [ef]
  simp only
  rw [Pg.writeItem_eq s' _ it.words it.flag false (al (l.length + r.length + 1) + ilen l) arrx (by omega) (by simp only; omega)
    (by simp only; omega) (by simp only; omega)]
  simp only
  -- memory outside of the item and its entry
  have out : ∀ x, x ≠ P.start + dsize xs + l.length → (x < P.start + dsize xs + (al (l.length + r.length + 1) + ilen l) ∨
      P.start + dsize xs + (al (l.length + r.length + 1) + ilen l) + it.words.length ≤ x) →
      mPut (mCopy s'.mem (P.start + dsize xs + (al (l.length + r.length + 1) + ilen l)) it.words) (P.start + dsize xs + l.length) (word (al (l.length + r.length + 1) + ilen l) it.flag) x
        = s'.mem x := by
    intro x h1 h2
    rw [mPut_ne h1, mCopy_out h2]
  obtain ⟨m', hm'⟩ : ∃ m, m = mPut (mCopy s'.mem (P.start + dsize xs + (al (l.length + r.length + 1) + ilen l)) it.words) (P.start + dsize xs + l.length)
      (word (al (l.length + r.length + 1) + ilen l) it.flag) := ⟨_, rfl⟩
  rw [← hm'] at out ⊢
  have hdesc : ∀ j, j < P.chunks.length → mdesc m' j = mdesc s'.mem j := by
    intro j hj
    exact mdesc_congr fun x h1 h2 => out x (by omega) (by omega)
  refine R.update h ?_ ?_ ?_ ?_ ?_ ?_ ?_ ?_ rfl rfl ?_ ?_ ?_ ?_ ?_ ?_ ?_
  · simp only; rw [rest]; exact R.fine
  · simp only; rw [rest]
  · simp only; rw [rest]
  · simp only; rw [rest]
  · simp only; rw [rest]
  · simp only; rw [rest, hn', hnn]; simp only; omega
  · rw [hcs', hcs]; simp only; rw [rest]; simp only; omega
  · simp only; rw [rest]; simp only; omega
  · intro x hx
    simp only [List.mem_append, List.mem_cons] at hx
    rcases hx with hx | hx | hx
    · exact f.kok.1 x (by rw [hk]; simp [hx])
    · rw [hx]; exact ⟨h4, hs⟩
    · exact f.kok.1 x (by rw [hk]; simp [hx])
  · intro x h1 h2
    simp only
    rw [out x (by omega) (by omega), low x h1 (by omega)]
  · intro j hj
    simp only
    rw [hdesc j (by omega), dlow j (by omega)]
  · simp only
    rw [hdesc c (by omega), dlow c (by omega)]
    have hd := f.desc
    rw [Pg.desc_eq, hc] at hd
    rw [hd]
  · intro j p o q fx fl h1 h2 h3 h4' h5 h6 h7 h8 h9 h10 h11 hd
    simp only
    rw [hdesc j h2, dhigh j (by omega) h2, hd, hcs', hcs, hn', hnn]
    rw [hcs', hcs] at h7
    have := al_mod (l.length + r.length)
    have := al_mod (l.length + r.length + 1)
    unfold Desc.cut shiftLoc
    simp only [Desc.mk.injEq, true_and]
    refine ⟨?_, ?_, ?_, ?_⟩ <;> omega
  · simp only
    unfold ChunkAt
    rw [hn', iarr_append, idata_append, At.append, At.append, iarr, idata_cons, At.cons, At.append, iarr_length,
      idata_length]
    refine ⟨⟨?_, ?_, ?_⟩, ?_, ?_, ?_⟩
    · have := iarr_shift (m' := m') (a' := P.start + dsize xs) (up := al (l.length + r.length + 1) - al (l.length + r.length)) (dn := 0) ca1 (by omega) (by omega) (fun i hi => by
        rw [out _ (by omega) (by omega), arr1 i hi])
      have e : al (l.length + r.length) + (al (l.length + r.length + 1) - al (l.length + r.length)) - 0 = al (l.length + r.length + 1) := by omega
      rw [e] at this
      exact this
    · rw [hm', mPut_self]
    · have := iarr_shift (m' := m') (a' := P.start + dsize xs + l.length + 1) (up := al (l.length + r.length + 1) - al (l.length + r.length) + it.words.length) (dn := 0) ca2
        (by omega) (by omega) (fun i hi => by
        have e : P.start + dsize xs + l.length + 1 + i = P.start + dsize xs + (l.length + 1 + i) := by omega
        rw [e, out _ (by omega) (by omega), arr2 i hi]
        congr 2
        omega)
      have e : al (l.length + r.length) + ilen l + (al (l.length + r.length + 1) - al (l.length + r.length) + it.words.length) - 0 = al (l.length + r.length + 1) + ilen l + it.words.length := by omega
      rw [e] at this
      exact this
    · refine cd1.frame fun i hi => ?_
      rw [idata_length] at hi
      rw [out _ (by omega) (by omega), data1 i hi]
    · have := mCopy_at s'.mem (P.start + dsize xs + (al (l.length + r.length + 1) + ilen l)) it.words
      rw [Nat.add_assoc, hm']
      exact this.same fun x h1 h2 => mPut_ne (by omega)
    · refine cd2.frame fun i hi => ?_
      rw [idata_length] at hi
      rw [out _ (by omega) (by omega), data2 i (by omega)]
  · intro i hi
    simp only
    rw [hcs', hcs]
    have := data2 (ilen r + i) (by omega)
    rw [out _ (by omega) (by omega)]
    have e1 : P.start + dsize xs + al (l.length + r.length + 1) + ilen l + it.words.length + (ilen r + i) =
      P.start + dsize xs + (al (l.length + r.length + 1) + (ilen l + (it.words.length + ilen r))) + i := by omega
    have e2 : P.start + dsize xs + al (l.length + r.length) + ilen l + (ilen r + i) = P.start + dsize xs + (al (l.length + r.length) + (ilen l + ilen r)) + i := by omega
    rw [e1, e2] at this
    exact this

end Verif.PageChunks
