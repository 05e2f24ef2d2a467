import Verif.PageChunks.Merge

/-! # Bytes of B-tree pages: split of a chunk -/

namespace Verif.PageChunks

/-- The items in `page_split_chunk`, src/btree/page_chunks.c:865-940. -/
def Pg.splitData (s : Pg) (l : Loc) : Pg :=
  let left := l.item
  let right := l.count - l.item
  let first := l.addr + al l.count
  let itemPtr := s.item l
  let leftShift := al l.count - al left
  let rightShift := itemOff (s.mem (l.addr + l.item)) - al right
  let tmp := (s.read (l.addr + l.item) right).map fun w => shiftW w 0 rightShift
  let s := { s with bad := s.bad || decide (maxChunkItems < right) }
  let s := loopUp (fun s i => s.put (l.addr + i) (shiftW (s.mem (l.addr + i)) 0 leftShift)) left 0 s
  let s := s.move (first - leftShift) first itemPtr
  let dataShift := al right + al left - al l.count
  let s := s.move (itemPtr + dataShift) itemPtr s.dataSize
  s.copyIn (itemPtr - al l.count + al left) tmp

/-- The descriptors and keys in `page_split_chunk`, src/btree/page_chunks.c:942-999. -/
def Pg.splitKeys (s : Pg) (c hikeySize dataShift left rightPtr : Nat) (leftFixed rightFixed : Bool) : Pg :=
  let dShift := hdrLen (s.chunksCount + 1) - hdrLen s.chunksCount
  let hShift := dShift + hikeySize
  let h0 := 2 * (s.desc 0).hloc
  let hc := 2 * (s.desc c).hloc
  let s := s.move (hc + hShift) hc s.hikeysEnd
  let s := s.move (h0 + dShift) h0 hc
  let s := loopUp (fun s i => s.setDesc i { s.desc i with hloc := shiftH (s.desc i).hloc dShift 0 })
    (c + 1) 0 s
  let s := loopDown (fun s i => s.setDesc i { s.desc (i - 1) with
      hloc := shiftH (s.desc (i - 1)).hloc hShift 0
      loc := shiftLoc (s.desc (i - 1)).loc dataShift 0 })
    (s.chunksCount - c) s.chunksCount s
  let i := c + 1
  let s := s.setDesc i ⟨rightPtr / 2, (s.desc (i - 1)).off + left,
    shiftH (s.desc (i - 1)).hloc hikeySize 0, rightFixed, (s.desc (i - 1)).flags⟩
  let s := s.setDesc (i - 1) { s.desc (i - 1) with fixed := leftFixed }
  { s with
    chunksCount := s.chunksCount + 1
    hikeysEnd := s.hikeysEnd + hShift
    dataSize := s.dataSize + dataShift }

theorem Pg.splitChunk_eq (s : Pg) (l : Loc) (z : Nat) : s.splitChunk l z =
    (s.splitData l).splitKeys l.chunk z (al (l.count - l.item) + al l.item - al l.count) l.item
      (s.item l - al l.count + al l.item)
      ((s.read l.addr l.item).all fun w => decide (itemFlags w % 2 = 1))
      ((s.read (l.addr + l.item) (l.count - l.item)).all fun w => decide (itemFlags w % 2 = 1)) := rfl

theorem Pg.splitData_eq (s : Pg) (c a nl nr ip cz : Nat) (hip : s.item ⟨c, nl, nl + nr, cz, a⟩ = ip)
    (hof : itemOff (s.mem (a + nl)) = ip - a)
    (hn : nr ≤ 819) (ha : 28 ≤ a) (he : a + al (nl + nr) ≤ ip) (hd : ip ≤ s.dataSize)
    (hs : s.dataSize + (al nr + al nl - al (nl + nr)) ≤ 4096) :
    ∃ m1 m2 m3 m4 : Nat → Nat,
      m1 = (fun x => if a + 0 ≤ x ∧ x < a + 0 + nl then shiftW (s.mem x) 0 (al (nl + nr) - al nl) else s.mem x) ∧
      m2 = mMove m1 (a + al (nl + nr) - (al (nl + nr) - al nl)) (a + al (nl + nr)) (ip - (a + al (nl + nr))) ∧
      m3 = mMove m2 (ip + (al nr + al nl - al (nl + nr))) ip (s.dataSize - ip) ∧
      m4 = mCopy m3 (ip - al (nl + nr) + al nl)
        ((s.read (a + nl) nr).map fun w => shiftW w 0 (ip - a - al nr)) ∧
      s.splitData ⟨c, nl, nl + nr, cz, a⟩ = { s with mem := m4 } := by
  have hdo : descOff = 28 := rfl
  have hbl : blck = 4096 := rfl
  have ha1 := al_le nl
  have ha2 := al_le nr
  have ha3 : al (nl + nr) ≤ al nl + al nr := by unfold al; omega
  have ha4 : al nl ≤ al (nl + nr) := al_mono (by omega)
  have ha5 := al_le (nl + nr)
  have hq : nl + nr - nl = nr := by omega
  have hb : decide (maxChunkItems < nr) = false := by
    rw [decide_eq_false_iff_not]
    unfold maxChunkItems
    omega
  refine ⟨_, _, _, _, rfl, rfl, rfl, rfl, ?_⟩
  unfold Pg.splitData
  simp only
  rw [hip, hof, hq, hb]
  simp only [Bool.or_false]
  rw [loop_put a _ _ (fun w => shiftW w 0 (al (nl + nr) - al nl)) _ (by omega)]
  rw [Pg.move_eq _ (a + al (nl + nr) - (al (nl + nr) - al nl)) (a + al (nl + nr)) ip (by omega)]
  rw [Pg.move_eq _ (ip + (al nr + al nl - al (nl + nr))) ip s.dataSize (by omega)]
  rw [Pg.copyIn_eq _ _ _ (by rw [List.length_map, Pg.read_length]; omega)]

theorem Pg.splitKeys_eq (s : Pg) (c z dz left rp h0 hc ds : Nat) (lf rf : Bool)
    (e0 : 2 * (mdesc s.mem 0).hloc = h0) (ec : 2 * (mdesc s.mem c).hloc = hc)
    (eds : hdrLen (s.chunksCount + 1) - hdrLen s.chunksCount = ds)
    (hN : c < s.chunksCount) (h1 : h0 = hdrLen s.chunksCount) (h2 : h0 ≤ hc)
    (h3 : hc ≤ s.hikeysEnd) (h4 : s.hikeysEnd + (ds + z) ≤ 4096) :
    ∃ m5 m6 m7 m8 m9 m10 : Nat → Nat,
      m5 = mMove s.mem (hc + (ds + z)) hc (s.hikeysEnd - hc) ∧
      m6 = mMove m5 (h0 + ds) h0 (hc - h0) ∧
      m7 = dMap m6 0 (c + 1) (fun i => { mdesc m6 i with hloc := shiftH (mdesc m6 i).hloc ds 0 }) ∧
      m8 = dMap m7 (c + 1) (s.chunksCount - c) (fun i => { mdesc m7 (i - 1) with
        hloc := shiftH (mdesc m7 (i - 1)).hloc (ds + z) 0, loc := shiftLoc (mdesc m7 (i - 1)).loc dz 0 }) ∧
      m9 = dSet m8 (c + 1) ⟨rp / 2, (mdesc m8 c).off + left, shiftH (mdesc m8 c).hloc z 0, rf, (mdesc m8 c).flags⟩ ∧
      m10 = dSet m9 c { mdesc m9 c with fixed := lf } ∧
      s.splitKeys c z dz left rp lf rf = { s with
        mem := m10, chunksCount := s.chunksCount + 1, hikeysEnd := s.hikeysEnd + (ds + z)
        dataSize := s.dataSize + dz } := by
  have hdo : descOff = 28 := rfl
  have hbl : blck = 4096 := rfl
  have hst := hdrLen_step s.chunksCount
  have hle := hdrLen_le s.chunksCount
  have hle2 := hdrLen_le (s.chunksCount + 1)
  refine ⟨_, _, _, _, _, _, rfl, rfl, rfl, rfl, rfl, rfl, ?_⟩
  unfold Pg.splitKeys
  simp only [Pg.desc_eq]
  rw [e0, ec, eds]
  rw [Pg.move_eq _ (hc + (ds + z)) hc s.hikeysEnd (by omega)]
  rw [Pg.move_eq _ (h0 + ds) h0 hc (by omega)]
  have LD := fun (s' : Pg) (hb : c + 1 = 0 ∨ descOff + 2 * (0 + (c + 1)) ≤ blck) =>
    loop_desc (c + 1) 0 (fun d => { d with hloc := shiftH d.hloc ds 0 }) s' hb
  simp only [Pg.desc_eq] at LD
  rw [LD _ (by omega)]
  have LP := fun (n t : Nat) (s' : Pg) (hn : n ≤ t) (hb : n = 0 ∨ descOff + 2 * (t + 1) ≤ blck) =>
    loop_desc_down n t (fun d => { d with hloc := shiftH d.hloc (ds + z) 0, loc := shiftLoc d.loc dz 0 }) s' hn hb
  simp only [Pg.desc_eq] at LP
  rw [LP _ _ _ (by simp only; omega) (by simp only; omega)]
  have k1 : s.chunksCount - (s.chunksCount - c) + 1 = c + 1 := by omega
  have k2 : c + 1 - 1 = c := by omega
  simp only [k1, k2]
  rw [Pg.setDesc_eq _ (c + 1) _ (by omega)]
  simp only
  rw [Pg.setDesc_eq _ c _ (by omega)]

/-- Where everything is after a split. -/
structure Splitted (s : Pg) (m : Nat → Nat) (P : Page) (xs : List Chunk) (k : Chunk) (l r : List Item)
    (ys : List Chunk) (key : List Nat × Nat) (lf rf : Bool) (N ds dz : Nat) : Prop where
  dlow : ∀ j p o q fx fl, j < xs.length → p % 4 = 0 → p ≤ 4096 → o ≤ 800 → q % 4 = 0 → q + ds < 256 → fl < 4 →
    mdesc s.mem j = ⟨p / 2, o, q / 2, fx, fl⟩ → mdesc m j = ⟨p / 2, o, (q + ds) / 2, fx, fl⟩
  dmid : mdesc m xs.length = ⟨(P.start + dsize xs) / 2, icount xs, (hdrLen N + ksize xs + ds) / 2, lf, key.2⟩
  dmid2 : mdesc m (xs.length + 1) = ⟨(P.start + dsize xs + (al l.length + ilen l)) / 2, icount xs + l.length,
    (hdrLen N + ksize xs + ds + key.1.length) / 2, rf, k.kflags⟩
  dhigh : ∀ j p o q fx fl, xs.length < j → j < N → p % 4 = 0 → p + dz ≤ 4096 → o ≤ 800 →
    q % 4 = 0 → q + ds + key.1.length < 256 → fl < 4 →
    mdesc s.mem j = ⟨p / 2, o, q / 2, fx, fl⟩ →
    mdesc m (j + 1) = ⟨(p + dz) / 2, o, (q + (ds + key.1.length)) / 2, fx, fl⟩
  keys1 : ∀ i, i < ksize xs → m (hdrLen N + ds + i) = s.mem (hdrLen N + i)
  keyc : At m (hdrLen N + ds + ksize xs) key.1
  keys2 : ∀ i, i < k.key.length + ksize ys →
    m (hdrLen N + ds + ksize xs + key.1.length + i) = s.mem (hdrLen N + ksize xs + i)
  low : ∀ x, P.start ≤ x → x < P.start + dsize xs → m x = s.mem x
  arr1 : ∀ i, i < l.length → m (P.start + dsize xs + i) =
    shiftW (s.mem (P.start + dsize xs + i)) 0 (al (l.length + r.length) - al l.length)
  data1 : ∀ i, i < ilen l →
    m (P.start + dsize xs + al l.length + i) = s.mem (P.start + dsize xs + al (l.length + r.length) + i)
  arr2 : ∀ i, i < r.length → m (P.start + dsize xs + (al l.length + ilen l) + i) =
    shiftW (s.mem (P.start + dsize xs + l.length + i)) 0 (al (l.length + r.length) + ilen l - al r.length)
  data2 : ∀ i, i < ilen r + dsize ys →
    m (P.start + dsize xs + (al l.length + ilen l) + al r.length + i) =
      s.mem (P.start + dsize xs + al (l.length + r.length) + ilen l + i)

theorem iarr_flags {m : Nat → Nat} {a off : Nat} {l : List Item} (h : At m a (iarr off l)) (hb : off + ilen l < 8192) :
    ((List.range l.length).map fun i => m (a + i)).all (fun w => decide (itemFlags w % 2 = 1)) = l.all (·.flag) := by
  have e := h.range_map
  rw [iarr_length] at e
  rw [e]
  clear e h
  induction l generalizing off with
  | nil => rfl
  | cons x l ih =>
    rw [ilen_cons] at hb
    rw [iarr, List.all_cons, List.all_cons, ih (by omega), itemFlags_word _ (by omega)]
    cases x.flag <;> rfl

set_option maxHeartbeats 2000000 in
theorem Rep.splitted {s P c xs k ys l r} {it : Item} {key : List Nat × Nat} (R : Rep s P) (h : ChunkSplit P c xs k ys)
    (hk : k.items = l ++ it :: r) (hk4 : key.1.length % 4 = 0) (hfl : key.2 < 4)
    (hfit : s.dataSize + (al (it :: r).length + al l.length - al k.items.length) ≤ 4096)
    (hkfit : hdrLen (P.chunks.length + 1) + ksize P.chunks + key.1.length ≤ P.start)
    (hklast : hdrLen (P.chunks.length + 1) + ksize P.chunks.dropLast + key.1.length < 256) :
    ∃ m, Splitted s m P xs k l (it :: r) ys key (l.all (·.flag)) ((it :: r).all (·.flag)) P.chunks.length
        (hdrLen (P.chunks.length + 1) - hdrLen P.chunks.length)
        (al (it :: r).length + al l.length - al k.items.length) ∧
      (let t := s.splitChunk { s.fill xs.length with item := l.length } key.1.length
       let t := t.copyIn (2 * (t.desc xs.length).hloc) key.1
       t.setDesc xs.length { t.desc xs.length with flags := key.2 }) = { s with
        mem := m
        hikeysEnd := s.hikeysEnd + (hdrLen (P.chunks.length + 1) - hdrLen P.chunks.length + key.1.length)
        chunksCount := s.chunksCount + 1
        dataSize := s.dataSize + (al (it :: r).length + al l.length - al k.items.length) } := by
  have f := R.facts h
  have fi := R.item h hk
  obtain ⟨R', hR'⟩ : ∃ x, x = it :: r := ⟨_, rfl⟩
  rw [← hR'] at hk hfit ⊢
  have hlR : R'.length = r.length + 1 := by rw [hR']; rfl
  have hnn : k.items.length = l.length + R'.length := by rw [hk]; simp
  have hil : ilen k.items = ilen l + ilen R' := by rw [hk, ilen_append]
  have hlen : P.chunks.length = xs.length + 1 + ys.length := by rw [h.eq]; simp; omega
  have hhl := hdrLen_le P.chunks.length
  have hhl2 := hdrLen_le (P.chunks.length + 1)
  have hdo : descOff = 28 := rfl
  have hbl : blck = 4096 := rfl
  have hc := h.len
  have hcnt := R.count
  have hl1 := limit_ge P.leaf
  have hl2 := R.slim
  have hic := R.icount_lt
  have hds := f.dend
  have hft := f.fit
  have hke := R.kend
  have c1 := csize_eq k
  have ffill := f.fill
  have fdesc := f.desc
  have famod := f.amod
  rw [Pg.desc_eq] at fdesc
  have hst := hdrLen_step P.chunks.length
  have hi1 : icount P.chunks = icount xs + (k.items.length + icount ys) := by
    rw [h.eq, icount_append, icount_cons]
  have hk1 : ksize P.chunks = ksize xs + (k.key.length + ksize ys) := by
    rw [h.eq, ksize_append, ksize_cons]
  have hkd : ksize xs ≤ ksize P.chunks.dropLast := by
    rw [h.eq, List.dropLast_append_of_ne_nil (by simp), ksize_append]
    omega
  have hz4 := hdrLen_mod P.chunks.length
  have hz4' := hdrLen_mod (P.chunks.length + 1)
  have hx4 := f.xok.ksize
  have hkk4 := f.kok.2.1
  have hkf4 := f.kok.2.2
  have ha1 := al_le l.length
  have ha2 := al_le R'.length
  have ha3 : al (l.length + R'.length) ≤ al l.length + al R'.length := by unfold al; omega
  have ha4 := al_le (l.length + R'.length)
  have ha5 : al l.length ≤ al (l.length + R'.length) := al_mono (by omega)
  have ha6 : al R'.length ≤ al (l.length + R'.length) := al_mono (by omega)
  have b1 := al_mod l.length
  have b2 := al_mod R'.length
  have b3 := al_mod (l.length + R'.length)
  have hlok : ∀ x ∈ l, x.ok := fun x hx => f.kok.1 x (by rw [hk]; simp [hx])
  have il4 := ilen_mod hlok
  rw [ffill] at fi ⊢
  rw [hnn] at fi hfit c1 hi1 ⊢
  simp only at fi
  have hoff : itemOff (s.mem (P.start + dsize xs + l.length)) =
      P.start + dsize xs + al (l.length + R'.length) + ilen l - (P.start + dsize xs) := by
    have := fi.addr
    unfold Pg.item at this
    simp only at this
    omega
  obtain ⟨m1, m2, m3, m4, e1, e2, e3, e4, eqd⟩ := Pg.splitData_eq s xs.length (P.start + dsize xs) l.length R'.length
    _ (csize k) fi.addr hoff (by omega) (by omega) (by omega) (by omega) (by omega)
  have hq : l.length + R'.length - l.length = R'.length := by omega
  have hlt : ((s.read (P.start + dsize xs + l.length) R'.length).map fun w => shiftW w 0
      (P.start + dsize xs + al (l.length + R'.length) + ilen l - (P.start + dsize xs) - al R'.length)).length =
      R'.length := by rw [List.length_map, Pg.read_length]
  have low4 : ∀ x, x < P.start + dsize xs → m4 x = s.mem x := by
    intro x hx
    rw [e4, mCopy_out (by omega), e3, mMove_out (by omega), e2, mMove_out (by omega), e1]
    simp only
    rw [if_neg (by omega)]
  have hd4 : ∀ j, j < P.chunks.length → mdesc m4 j = mdesc s.mem j := by
    intro j hj
    exact mdesc_congr fun x h1 h2 => low4 x (by omega)
  have d0 := R.desc0
  obtain ⟨ds, hdse⟩ : ∃ x, x = hdrLen (P.chunks.length + 1) - hdrLen P.chunks.length := ⟨_, rfl⟩
  obtain ⟨dz, hdze⟩ : ∃ x, x = al R'.length + al l.length - al (l.length + R'.length) := ⟨_, rfl⟩
  rw [← hdse, ← hdze]
  rw [← hdze] at hfit e3
  obtain ⟨m5, m6, m7, m8, m9, m10, e5, e6, e7, e8, e9, e10, eqk⟩ := Pg.splitKeys_eq
    (s.splitData ⟨xs.length, l.length, l.length + R'.length, csize k, P.start + dsize xs⟩) xs.length key.1.length
    dz l.length
    (P.start + dsize xs + al (l.length + R'.length) + ilen l - al (l.length + R'.length) + al l.length)
    (hdrLen P.chunks.length) (hdrLen P.chunks.length + ksize xs) ds (l.all (·.flag)) (R'.all (·.flag))
    (by rw [eqd]; simp only; rw [hd4 _ (by omega), d0])
    (by rw [eqd]; simp only; rw [hd4 _ (by omega), fdesc]; simp only; omega)
    (by rw [eqd]; simp only; rw [hcnt, hdse]) (by rw [eqd]; simp only; omega) (by rw [eqd]; simp only; rw [hcnt])
    (by omega) (by rw [eqd]; simp only; omega) (by rw [eqd]; simp only; omega)
  rw [eqd] at e5 e8 eqk
  simp only at e5 e8 eqk
  -- keys and descriptors
  have low6 : ∀ x, x < hdrLen P.chunks.length → m6 x = s.mem x := by
    intro x hx
    rw [e6, mMove_out (by omega), e5, mMove_out (by omega), low4 x (by omega)]
  have hd6 : ∀ j, j < P.chunks.length → mdesc m6 j = mdesc s.mem j := by
    intro j hj
    exact mdesc_congr fun x h1 h2 => low6 x (by omega)
  have hd7 : ∀ j, xs.length < j → j < P.chunks.length → mdesc m7 j = mdesc s.mem j := by
    intro j h1 h2
    rw [e7, mdesc_dMap_out (by omega), hd6 j h2]
  have hd7c : mdesc m7 xs.length = ⟨(P.start + dsize xs) / 2, icount xs, (hdrLen P.chunks.length + ksize xs + ds) / 2,
      k.fixed, k.kflags⟩ := by
    rw [e7, mdesc_dMap_in (by omega), hd6 _ (by omega), fdesc]
    unfold Desc.cut shiftH
    simp only [Desc.mk.injEq, true_and]
    refine ⟨?_, ?_, ?_, ?_⟩ <;> omega
  have hd8c : mdesc m8 xs.length = ⟨(P.start + dsize xs) / 2, icount xs, (hdrLen P.chunks.length + ksize xs + ds) / 2,
      k.fixed, k.kflags⟩ := by
    rw [e8, mdesc_dMap_out (by omega), hd7c]
  have hd9c : mdesc m9 xs.length = ⟨(P.start + dsize xs) / 2, icount xs, (hdrLen P.chunks.length + ksize xs + ds) / 2,
      k.fixed, k.kflags⟩ := by
    rw [e9, mdesc_dSet_ne (by omega), hd8c]
  have hd10c : mdesc m10 xs.length = ⟨(P.start + dsize xs) / 2, icount xs,
      (hdrLen P.chunks.length + ksize xs + ds) / 2, l.all (·.flag), k.kflags⟩ := by
    rw [e10, mdesc_dSet_self, hd9c]
    unfold Desc.cut
    simp only [Desc.mk.injEq, true_and]
    refine ⟨?_, ?_, ?_, ?_⟩ <;> omega
  have h106 : ∀ x, hdrLen (P.chunks.length + 1) ≤ x → m10 x = m6 x := by
    intro x hx
    rw [e10, dSet_out (by omega), e9, dSet_out (by omega), e8, dMap_out (by omega), e7, dMap_out (by omega)]
  have hp11 : 2 * ((hdrLen P.chunks.length + ksize xs + ds) / 2) = hdrLen P.chunks.length + ds + ksize xs := by omega
  obtain ⟨m11, e11⟩ : ∃ m, m = mCopy m10 (hdrLen P.chunks.length + ds + ksize xs) key.1 := ⟨_, rfl⟩
  obtain ⟨m, hm⟩ : ∃ m, m = dSet m11 xs.length { mdesc m11 xs.length with flags := key.2 } := ⟨_, rfl⟩
  refine ⟨m, ?_, ?_⟩
  · have hd11 : ∀ j, j < P.chunks.length + 1 →
        mdesc m11 j = mdesc m10 j := by
      intro j hj
      rw [e11]
      exact mdesc_congr fun x h1 h2 => mCopy_out (by omega)
    have hdl : ∀ j, j < P.chunks.length + 1 → j ≠ xs.length →
        mdesc m j =
        mdesc m10 j := by
      intro j h1 h2
      rw [hm, mdesc_dSet_ne h2, hd11 j h1]
    have hmem : ∀ x, hdrLen (P.chunks.length + 1) ≤ x → (x < hdrLen P.chunks.length + ds + ksize xs ∨
        hdrLen P.chunks.length + ds + ksize xs + key.1.length ≤ x) →
        m x = m6 x := by
      intro x h1 h2
      rw [hm, dSet_out (by omega), e11, mCopy_out h2, h106 x h1]
    have hmd : ∀ x, P.start ≤ x →
        m x = m4 x := by
      intro x h1
      rw [hmem x (by omega) (by omega), e6, mMove_out (by omega), e5, mMove_out (by omega)]
    have hdm : mdesc m xs.length =
       ⟨(P.start + dsize xs) / 2, icount xs, (hdrLen P.chunks.length + ksize xs + ds) / 2, l.all (·.flag), key.2⟩ := by
      rw [hm, mdesc_dSet_self, hd11 _ (by omega), hd10c]
      unfold Desc.cut
      simp only [Desc.mk.injEq, true_and]
      refine ⟨?_, ?_, ?_, ?_⟩ <;> omega
    have hkc : At m
        (hdrLen P.chunks.length + ds + ksize xs) key.1 := by
      rw [hm]
      refine At.same (m := m11) ?_ fun x h1 h2 => dSet_out (by omega)
      rw [e11]
      exact mCopy_at _ _ _
    refine ⟨?_, hdm, ?_, ?_, ?_, hkc, ?_, ?_, ?_, ?_, ?_, ?_⟩
    · intro j p o q fx fl hj hp hp2 ho hq4 hq2 hfl hd
      rw [hdl j (by omega) (by omega), e10, mdesc_dSet_ne (by omega), e9, mdesc_dSet_ne (by omega), e8,
        mdesc_dMap_out (by omega), e7, mdesc_dMap_in (by omega), hd6 j (by omega), hd]
      unfold Desc.cut shiftH
      simp only [Desc.mk.injEq, true_and]
      refine ⟨?_, ?_, ?_, ?_⟩ <;> omega
    · rw [hdl _ (by omega) (by omega), e10, mdesc_dSet_ne (by omega), e9, mdesc_dSet_self, hd8c]
      unfold Desc.cut shiftH
      simp only [Desc.mk.injEq, true_and]
      refine ⟨?_, ?_, ?_, ?_⟩ <;> omega
    · intro j p o q fx fl hj hj2 hp hp2 ho hq4 hq2 hfl hd
      rw [hdl _ (by omega) (by omega), e10, mdesc_dSet_ne (by omega), e9, mdesc_dSet_ne (by omega), e8,
        mdesc_dMap_in (by omega), Nat.add_sub_cancel, hd7 j (by omega) (by omega), hd]
      unfold Desc.cut shiftH shiftLoc
      simp only [Desc.mk.injEq, true_and]
      refine ⟨?_, ?_, ?_, ?_⟩ <;> omega
    · intro i hi
      rw [hmem _ (by omega) (by omega), e6, mMove_in (by omega), e5, mMove_out (by omega), low4 _ (by omega)]
      congr 1
      omega
    · intro i hi
      rw [hmem _ (by omega) (by omega), e6, mMove_out (by omega), e5, mMove_in (by omega), low4 _ (by omega)]
      congr 1
      omega
    · intro x h1 h2
      rw [hmd x h1, low4 x h2]
    · intro i hi
      rw [hmd _ (by omega), e4, mCopy_out (by omega), e3, mMove_out (by omega), e2, mMove_out (by omega), e1]
      simp only
      rw [if_pos (by omega)]
    · intro i hi
      rw [hmd _ (by omega), e4, mCopy_out (by omega), e3, mMove_out (by omega), e2, mMove_in (by omega), e1]
      simp only
      rw [if_neg (by omega)]
      congr 1
      omega
    · intro i hi
      have hrp : P.start + dsize xs + al (l.length + R'.length) + ilen l - al (l.length + R'.length) + al l.length =
        P.start + dsize xs + (al l.length + ilen l) := by omega
      rw [hrp] at e4
      have := mCopy_at m3 (P.start + dsize xs + (al l.length + ilen l))
        ((s.read (P.start + dsize xs + l.length) R'.length).map fun w => shiftW w 0
      (P.start + dsize xs + al (l.length + R'.length) + ilen l - (P.start + dsize xs) - al R'.length))
      have := this.getElem (i := i) (by omega)
      rw [hmd _ (by omega), e4, this]
      simp only [List.getElem_map, Pg.read, List.getElem_range]
      congr 1
      omega
    · intro i hi
      rw [hmd _ (by omega), e4, mCopy_out (by omega), e3, mMove_in (by omega), e2, mMove_out (by omega), e1]
      simp only
      rw [if_neg (by omega)]
      congr 1
      omega
  · have hch := f.chunk
    unfold ChunkAt at hch
    rw [hnn, hk, iarr_append, At.append, iarr_length] at hch
    have fl1 := iarr_flags hch.1.1 (by omega)
    have fl2 := iarr_flags hch.1.2 (by omega)
    simp only
    rw [Pg.splitChunk_eq]
    simp only [Pg.read]
    rw [hq, fl1, fl2, fi.addr, eqd, ← hdze, eqk]
    simp only [Pg.desc_eq]
    rw [hd10c]
    simp only
    rw [hp11, Pg.copyIn_eq _ _ _ (by omega)]
    simp only
    rw [← e11, Pg.setDesc_eq _ _ _ (by omega), hm]

end Verif.PageChunks
