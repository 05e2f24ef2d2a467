import Verif.PageChunks.Place

/-! # Bytes of B-tree pages: how a reorganization writes chunks, descriptors and keys -/

namespace Verif.PageChunks

/-- One chunk is written. -/
def Pg.placeOne (s : Pg) (c : List Src) (j off ptr : Nat) (fx : Bool) : Pg :=
  let s := s.copyIn ptr (arrayOf (al c.length) c)
  let s := s.setDesc j { s.desc j with loc := ptr / 2, off := off, fixed := fx }
  placeItems c (ptr + al c.length) s

theorem Pg.placeOne_at {s0 s : Pg} {c : List Src} {j off ptr N : Nat} {fx : Bool} (hj : j < N) (hN : hdrLen N ≤ ptr)
    (hfit : ptr + (al c.length + slen c) ≤ 4096) (hoff : off < 1024) (hin : InPage c)
    (hk : Kept s0 s.mem (ptr + al c.length) c) :
    ∃ m, s.placeOne c j off ptr fx = { s with mem := m } ∧ ChunkAt m ptr (c.map (Src.item s0)) ∧
      (mdesc m j).loc = ptr / 2 ∧ (mdesc m j).off = off ∧ (mdesc m j).fixed = fx ∧
      (∀ x, x < descOff + 2 * j ∨ descOff + 2 * j + 2 ≤ x ∧ x < ptr ∨ ptr + (al c.length + slen c) ≤ x →
        m x = s.mem x) := by
  have hbl : blck = 4096 := rfl
  have hh := hdrLen_le N
  have hal := al_le c.length
  have hlen : (arrayOf (al c.length) c).length = c.length := by
    rw [arrayOf_eq s0, iarr_length, List.length_map]
  unfold Pg.placeOne
  simp only
  rw [Pg.copyIn_eq _ _ _ (by omega), Pg.setDesc_eq _ _ _ (by omega)]
  simp only [Pg.desc_eq]
  obtain ⟨m1, h1⟩ : ∃ m1, m1 = mCopy s.mem ptr (arrayOf (al c.length) c) := ⟨_, rfl⟩
  rw [← h1]
  obtain ⟨d, hd⟩ : ∃ d : Desc, d = ⟨ptr / 2, off, (mdesc m1 j).hloc, fx, (mdesc m1 j).flags⟩ := ⟨_, rfl⟩
  rw [← hd]
  have k1 : Kept s0 (dSet m1 j d) (ptr + al c.length) c := by
    refine hk.same fun x hx => ?_
    rw [dSet_out (by omega), h1, mCopy_out (by omega)]
  obtain ⟨m, e, a, f⟩ := placeItems_at (s0 := s0) c (s := { s with mem := dSet m1 j d }) (p := ptr + al c.length)
    (by omega) (by omega) hin k1
  simp only at f
  have hdes : mdesc m j = d.cut := by
    rw [mdesc_congr (m := dSet m1 j d) fun x hx hx2 => f x (by omega), mdesc_dSet_self]
  refine ⟨m, e, ⟨?_, ?_⟩, ?_, ?_, ?_, ?_⟩
  · rw [List.length_map, ← arrayOf_eq]
    have := mCopy_at s.mem ptr (arrayOf (al c.length) c)
    rw [← h1] at this
    refine this.same fun x hx hx2 => ?_
    rw [f x (by omega), dSet_out (by omega)]
  · rw [List.length_map]
    exact a
  · rw [hdes, hd]
    simp only [Desc.cut]
    omega
  · rw [hdes, hd]
    simp only [Desc.cut]
    omega
  · rw [hdes, hd]
    rfl
  · intro x hx
    rw [f x (by omega), dSet_out (by omega), h1, mCopy_out (by omega)]

theorem placeChunks_cons (mk : MkKey) (leaf : Bool) (c : List Src) (cs) (j off ptr hptr : Nat) (fx : Bool) (s : Pg)
    (hj : j ≠ 0) :
    placeChunks mk leaf (c :: cs) j off ptr hptr fx s =
      (let s := s.placeOne c j off ptr (fixedKeys leaf j c)
       let key := mk (s.read (ptr + itemOff (s.mem ptr)) ((c.map Src.size).headD 0))
        (decide (itemFlags (s.mem ptr) ≠ 0))
       let s := s.copyIn hptr key.1
       let s := s.setDesc (j - 1) { s.desc (j - 1) with flags := key.2, hloc := hptr / 2 }
       placeChunks mk leaf cs (j + 1) (off + c.length) (ptr + al c.length + slen c) (hptr + key.1.length)
        (fx && decide (key.2 % 2 = 1)) s) := by
  rw [placeChunks]
  simp only
  rw [if_neg hj]
  rfl

theorem placeChunks_first (mk : MkKey) (leaf : Bool) (c : List Src) (cs) (off ptr hptr : Nat) (fx : Bool) (s : Pg) :
    placeChunks mk leaf (c :: cs) 0 off ptr hptr fx s =
      placeChunks mk leaf cs 1 (off + c.length) (ptr + al c.length + slen c) hptr fx
        (s.placeOne c 0 off ptr (fixedKeys leaf 0 c)) := rfl

/-- The key of the page, src/btree/page_chunks.c:1454-1466. -/
def Pg.fin (hk : List Nat × Nat) (j : Nat) (r : Pg × Nat × Bool) : Pg :=
  let s := r.1.copyIn r.2.1 hk.1
  s.setDesc (j - 1) { s.desc (j - 1) with flags := hk.2, hloc := r.2.1 / 2 }

/-- Setting the key of a chunk. -/
theorem setKey {s : Pg} {i N e hptr : Nat} {key : List Nat × Nat} {pos off : Nat} {fx : Bool}
    (hi : i < N) (hN : hdrLen N ≤ hptr) (he : hptr + key.1.length ≤ e) (he2 : e ≤ 4096) (hh : hptr < 256)
    (hfl : key.2 < 4) (h1 : (mdesc s.mem i).loc = pos / 2) (hp : pos ≤ 4096) (h2 : (mdesc s.mem i).off = off) (ho : off < 1024)
    (h3 : (mdesc s.mem i).fixed = fx) :
    ∃ m, ((s.copyIn hptr key.1).setDesc i
        { (s.copyIn hptr key.1).desc i with flags := key.2, hloc := hptr / 2 }) = { s with mem := m } ∧
      mdesc m i = ⟨pos / 2, off, hptr / 2, fx, key.2⟩ ∧ At m hptr key.1 ∧
      (∀ x, x < descOff + 2 * i ∨ descOff + 2 * i + 2 ≤ x ∧ x < hptr ∨ hptr + key.1.length ≤ x → m x = s.mem x) := by
  have hbl : blck = 4096 := rfl
  have hh2 := hdrLen_le N
  rw [Pg.copyIn_eq _ _ _ (by omega), Pg.setDesc_eq _ _ _ (by omega)]
  simp only [Pg.desc_eq]
  obtain ⟨m1, hm1⟩ : ∃ m1, m1 = mCopy s.mem hptr key.1 := ⟨_, rfl⟩
  rw [← hm1]
  have hd : mdesc m1 i = mdesc s.mem i := mdesc_congr fun x _ _ => by rw [hm1, mCopy_out (by omega)]
  rw [hd, h1, h2, h3]
  refine ⟨_, rfl, ?_, ?_, ?_⟩
  · rw [mdesc_dSet_self]
    simp only [Desc.cut, Desc.mk.injEq, true_and]
    omega
  · have := mCopy_at s.mem hptr key.1
    rw [← hm1] at this
    refine this.same fun x _ _ => ?_
    rw [dSet_out (by omega)]
  · intro x hx
    rw [dSet_out (by omega), hm1, mCopy_out (by omega)]

/-- The whole of the page after the second pass. -/
structure Placed (m m0 : Nat → Nat) (N e j pp off hptr : Nat) (Q : List Chunk) : Prop where
  descs : DescsAt m (j - 1) pp off hptr Q
  keys : At m hptr (kdata Q)
  chunks : ChunksAt m pp Q
  frame : ∀ x, x < descOff + 2 * (j - 1) ∨ hdrLen N ≤ x ∧ x < hptr ∨ e ≤ x ∧ x < pp → m x = m0 x

theorem mkChunks_ne (mk : MkKey) (leaf : Bool) (hk : List Nat × Nat) (first : Bool) (l : List Item) (r : List (List Item)) :
    mkChunks mk leaf hk first (l :: r) ≠ [] := by
  cases r <;> simp [mkChunks]

theorem placeRest {s0 : Pg} {mk : MkKey} (hm : MkOk mk) (leaf : Bool) (hk : List Nat × Nat) (hk2 : hk.2 < 4) {N e : Nat}
    (cs : List (List Src)) : ∀ {s : Pg} {j : Nat} {l : List Item} {first : Bool} {pp offp hptr : Nat} {fx : Bool}
    (_ : 1 ≤ j) (_ : j + cs.length = N) (_ : hdrLen N ≤ hptr) (_ : ChunkAt s.mem pp l)
    (_ : (mdesc s.mem (j - 1)).loc = pp / 2) (_ : (mdesc s.mem (j - 1)).off = offp)
    (_ : (mdesc s.mem (j - 1)).fixed = fixedItems leaf first l)
    (_ : KeptC s0 s.mem (pp + (al l.length + ilen l)) cs) (_ : InPage cs.flatten) (_ : ∀ c ∈ cs, c ≠ [])
    (_ : hptr + ksize (mkChunks mk leaf hk first (l :: cs.map (·.map (Src.item s0)))) ≤ e) (_ : e ≤ pp)
    (_ : hptr + ksize (mkChunks mk leaf hk first (l :: cs.map (·.map (Src.item s0)))).dropLast < 256)
    (_ : pp + (al l.length + ilen l) + clen cs ≤ 4096) (_ : offp + l.length + cs.flatten.length < 1024),
    ∃ m, Pg.fin hk N (placeChunks mk leaf cs j (offp + l.length) (pp + (al l.length + ilen l)) hptr fx s) =
        { s with mem := m } ∧
      Placed m s.mem N e j pp offp hptr (mkChunks mk leaf hk first (l :: cs.map (·.map (Src.item s0)))) ∧
      (placeChunks mk leaf cs j (offp + l.length) (pp + (al l.length + ilen l)) hptr fx s).2 =
        (hptr + ksize (mkChunks mk leaf hk first (l :: cs.map (·.map (Src.item s0)))).dropLast,
          fx && (mkChunks mk leaf hk first (l :: cs.map (·.map (Src.item s0)))).dropLast.all
            fun k => decide (k.kflags % 2 = 1)) := by
  induction cs with
  | nil =>
    intro s j l first pp offp hptr fx hj hN hH hc d1 d2 d3 _ _ _ hke hep hkl hfit hof
    simp only [List.map_nil, mkChunks, ksize_cons, List.dropLast_singleton] at hke hkl ⊢
    have z : ksize ([] : List Chunk) = 0 := rfl
    have z2 : clen ([] : List (List Src)) = 0 := rfl
    simp only [List.length_nil, List.flatten_nil] at hN hof
    rw [z] at hke hkl
    rw [z2] at hfit
    rw [placeChunks]
    have hjN : N = j := by omega
    subst hjN
    obtain ⟨m, e1, e2, e3, e4⟩ := setKey (s := s) (i := N - 1) (N := N) (e := e) (hptr := hptr) (key := hk) (pos := pp)
      (off := offp) (fx := fixedItems leaf first l) (by omega) hH (by omega) (by omega) (by omega) hk2 d1 (by omega)
      d2 (by omega) d3
    refine ⟨m, e1, ⟨⟨e2, trivial⟩, ?_, ⟨?_, trivial⟩, fun x hx => ?_⟩, ?_⟩
    · rw [kdata_cons]
      simpa [kdata] using e3
    · refine hc.frame fun i hi => e4 _ ?_
      omega
    · have := hdrLen_le N
      exact e4 x (by omega)
    · rw [z]
      simp
  | cons c cs ih =>
    intro s j l first pp offp hptr fx hj hN hH hc d1 d2 d3 hkc hin hne hke hep hkl hfit hof
    obtain ⟨x, c', hc'⟩ : ∃ x c', c = x :: c' := by
      cases c with
      | nil => exact absurd rfl (hne [] (by simp))
      | cons x c' => exact ⟨x, c', rfl⟩
    obtain ⟨L, hL⟩ : ∃ L, L = c.map (Src.item s0) := ⟨_, rfl⟩
    have hLl : L.length = c.length := by rw [hL, List.length_map]
    have hLi : ilen L = slen c := by rw [hL, slen_eq]
    obtain ⟨key, hkey⟩ : ∃ key, key = mk (x.words s0) x.flag := ⟨_, rfl⟩
    have hQ : mkChunks mk leaf hk first (l :: (c :: cs).map (·.map (Src.item s0))) =
        ⟨l, fixedItems leaf first l, key.1, key.2⟩ ::
          mkChunks mk leaf hk false (L :: cs.map (·.map (Src.item s0))) := by
      rw [List.map_cons, mkChunks, ← hL]
      have : L.getD 0 ⟨false, []⟩ = Src.item s0 x := by rw [hL, hc']; rfl
      simp only [this]
      rw [hkey]
      rfl
    rw [hQ] at hke hkl ⊢
    obtain ⟨Q, hQd⟩ : ∃ Q, Q = mkChunks mk leaf hk false (L :: cs.map (·.map (Src.item s0))) := ⟨_, rfl⟩
    have hQne : Q ≠ [] := by rw [hQd]; exact mkChunks_ne _ _ _ _ _ _
    rw [← hQd] at hke hkl ⊢
    rw [ksize_cons] at hke
    rw [List.dropLast_cons_of_ne_nil hQne, ksize_cons] at hkl ⊢
    simp only at hke hkl ⊢
    rw [List.length_cons] at hN
    rw [clen_cons] at hfit
    rw [List.flatten_cons, List.length_append] at hof
    rw [List.flatten_cons] at hin
    have hmk := hm (x.words s0) x.flag
    rw [← hkey] at hmk
    have hHl := hdrLen_le N
    obtain ⟨ptr, hptr'⟩ : ∃ p, p = pp + (al l.length + ilen l) := ⟨_, rfl⟩
    rw [← hptr'] at hkc hfit ⊢
    obtain ⟨m1, e1, c1, a1, a2, a3, f1⟩ := Pg.placeOne_at (s0 := s0) (s := s) (c := c) (j := j) (off := offp + l.length)
      (ptr := ptr) (N := N) (fx := fixedKeys leaf j c) (by omega) (by omega) (by omega) (by omega)
      (fun a n f hmem => hin a n f (by simp [hmem])) hkc.1
    rw [placeChunks_cons _ _ _ _ _ _ _ _ _ _ (by omega)]
    simp only [e1]
    -- the key
    have hent : m1 ptr = word (al c.length) x.flag := by
      have := c1.1
      rw [List.length_map, hc', List.map_cons, iarr, At.cons] at this
      rw [hc']
      exact this.1
    have hrd : ({ s with mem := m1 } : Pg).read (ptr + itemOff (m1 ptr)) ((c.map Src.size).headD 0) = x.words s0 := by
      have h2 := c1.2
      rw [hent, itemOff_word _ (by omega)]
      rw [List.length_map, hc', List.map_cons, idata_cons, At.append] at h2
      have h3 : (c.map Src.size).headD 0 = x.size := by rw [hc']; rfl
      rw [h3]
      rw [← hc'] at h2
      exact Pg.read_at h2.1 (x.words_length s0).symm
    have hfl : decide (itemFlags (m1 ptr) ≠ 0) = x.flag := by
      rw [hent, itemFlags_word _ (by omega)]
      cases x.flag <;> rfl
    rw [hrd, hfl, ← hkey]
    have hjd : mdesc m1 (j - 1) = mdesc s.mem (j - 1) := mdesc_congr fun y _ _ => f1 y (by omega)
    obtain ⟨m2, e2, b1, b2, f2⟩ := setKey (s := { s with mem := m1 }) (i := j - 1) (N := N) (e := e) (hptr := hptr)
      (key := key) (pos := pp) (off := offp) (fx := fixedItems leaf first l) (by omega) hH (by omega) (by omega)
      (by omega) hmk.2 (by simp only [hjd]; exact d1) (by omega) (by simp only [hjd]; exact d2) (by omega)
      (by simp only [hjd]; exact d3)
    simp only [Pg.desc_eq] at e2 f2
    simp only [Pg.desc_eq]
    rw [e2]
    have hjd2 : mdesc m2 j = mdesc m1 j := mdesc_congr fun y _ _ => f2 y (by omega)
    have hjj : j + 1 - 1 = j := by omega
    have hfx : fixedKeys leaf j c = fixedItems leaf false L := by
      unfold fixedKeys fixedItems
      rw [hL]
      have : decide (j = 0) = false := by simp; omega
      rw [this, Bool.and_false, if_neg (by simp), if_neg (by simp), List.all_map]
      rfl
    have hpn : ptr + al c.length + slen c = ptr + (al L.length + ilen L) := by rw [hLl, hLi]; omega
    have hon : offp + l.length + c.length = offp + l.length + L.length := by rw [hLl]
    rw [hpn, hon]
    obtain ⟨m, g1, g2, g3⟩ := ih (s := { s with mem := m2 }) (j := j + 1) (l := L) (first := false) (pp := ptr)
      (offp := offp + l.length) (hptr := hptr + key.1.length) (fx := fx && decide (key.2 % 2 = 1))
      (by omega) (by omega) (by omega)
      (by
        have : ChunkAt m1 ptr L := by rw [hL]; exact c1
        refine this.frame fun i hi => f2 _ ?_
        omega)
      (by simp only [hjj, hjd2]; exact a1) (by simp only [hjj, hjd2]; exact a2)
      (by simp only [hjj, hjd2]; rw [a3, hfx])
      (by
        rw [hLl, hLi]
        refine hkc.2.same fun y hy => ?_
        simp only
        rw [f2 y (by omega)]
        exact f1 y (by omega))
      (fun a n f hmem => hin a n f (by simp only [List.mem_append]; exact Or.inr hmem))
      (fun c hc => hne c (by simp [hc]))
      (by rw [← hQd]; omega) (by omega) (by rw [← hQd]; omega) (by rw [hLl, hLi]; omega) (by rw [hLl]; omega)
    rw [← hQd] at g2 g3
    simp only at g1
    refine ⟨m, g1, ⟨⟨?_, ?_⟩, ?_, ⟨?_, ?_⟩, ?_⟩, ?_⟩
    · rw [mdesc_congr (m := m2) fun y h1 h2 => g2.frame y (by omega)]
      exact b1
    · have := g2.descs
      have ej : j - 1 + 1 = j + 1 - 1 := by omega
      have ep : pp + csize ⟨l, fixedItems leaf first l, key.1, key.2⟩ = ptr := by rw [hptr']; rfl
      rw [ej, ep]
      exact this
    · rw [kdata_cons, At.append]
      refine ⟨?_, g2.keys⟩
      exact b2.same fun y h1 h2 => g2.frame y (by omega)
    · refine hc.frame fun i hi => ?_
      rw [g2.frame _ (by omega)]
      simp only
      rw [f2 _ (by omega)]
      exact f1 _ (by omega)
    · have ep : pp + csize ⟨l, fixedItems leaf first l, key.1, key.2⟩ = ptr := by rw [hptr']; rfl
      rw [ep]
      exact g2.chunks
    · intro y hy
      rw [g2.frame y (by omega)]
      simp only
      rw [f2 y (by omega)]
      exact f1 y (by omega)
    · rw [g3, List.all_cons, Bool.and_assoc]
      simp only [Prod.mk.injEq, and_true]
      omega

end Verif.PageChunks
