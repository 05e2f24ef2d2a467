import Verif.PageChunks.Split

/-! # Bytes of B-tree pages: contents after the split of a chunk -/

namespace Verif.PageChunks

/-- `DescsAt.shift` with a bound on the positions of keys relative to the first. -/
theorem DescsAt.shiftK {m m' : Nat → Nat} {i i' pos pos' off off' hp hp' : Nat} {P : List Chunk}
    (h : DescsAt m i pos off hp P) (al : Aligned P) (hpos : pos % 4 = 0)
    (H : ∀ j p o k fx fl, j < P.length → p % 4 = 0 → k % 4 = 0 → p ≤ dsize P → o ≤ icount P →
      k ≤ ksize P.dropLast → fl < 4 →
      mdesc m (i + j) = ⟨(pos + p) / 2, off + o, (hp + k) / 2, fx, fl⟩ →
      mdesc m' (i' + j) = ⟨(pos' + p) / 2, off' + o, (hp' + k) / 2, fx, fl⟩) :
    DescsAt m' i' pos' off' hp' P := by
  induction P generalizing i i' pos pos' off off' hp hp' with
  | nil => trivial
  | cons c P ih =>
    have hc := al c (by simp)
    refine ⟨?_, ih h.2 al.tail ?_ ?_⟩
    · have := H 0 0 0 0 c.fixed c.kflags (by simp) rfl rfl (Nat.zero_le _) (Nat.zero_le _) (Nat.zero_le _) hc.2.2
        (by simpa using h.1)
      simpa using this
    · have := csize_mod hc.1
      omega
    · intro j p o k fx fl hj hp4 hk4 hpd hoc hk hfl hd
      have h4 := csize_mod hc.1
      have e : ksize (c :: P).dropLast = c.key.length + ksize P.dropLast := by
        rw [List.dropLast_cons_of_ne_nil (by intro h0; rw [h0] at hj; simp at hj), ksize_cons]
      have := H (j + 1) (csize c + p) (c.items.length + o) (c.key.length + k) fx fl (by simp; omega) (by omega)
        (by have := hc.2.1; omega) (by rw [dsize_cons]; omega) (by rw [icount_cons]; omega) (by omega) hfl
        (by
          have e1 : i + (j + 1) = i + 1 + j := by omega
          rw [e1, hd]
          simp only [Desc.mk.injEq, and_true]
          omega)
      have e1 : i' + (j + 1) = i' + 1 + j := by omega
      rw [e1] at this
      rw [this]
      simp only [Desc.mk.injEq, and_true]
      omega

set_option maxHeartbeats 1000000 in
theorem Rep.ofSplitted {s P c xs k ys l r m key b} (R : Rep s P) (h : ChunkSplit P c xs k ys)
    (hk : k.items = l ++ r) (hk4 : key.1.length % 4 = 0) (hfl : key.2 < 4)
    (hfit : s.dataSize + (al r.length + al l.length - al k.items.length) ≤ 4096)
    (hkfit : hdrLen (P.chunks.length + 1) + ksize P.chunks + key.1.length ≤ P.start)
    (hklast : hdrLen (P.chunks.length + 1) + ksize P.chunks.dropLast + key.1.length < 256)
    (M : Splitted s m P xs k l r ys key (l.all (·.flag)) (r.all (·.flag)) P.chunks.length
        (hdrLen (P.chunks.length + 1) - hdrLen P.chunks.length)
        (al r.length + al l.length - al k.items.length)) :
    Rep { s with
        mem := m
        hikeysFixed := b
        hikeysEnd := s.hikeysEnd + (hdrLen (P.chunks.length + 1) - hdrLen P.chunks.length + key.1.length)
        chunksCount := s.chunksCount + 1
        dataSize := s.dataSize + (al r.length + al l.length - al k.items.length) }
      { P with chunks := xs ++ ⟨l, l.all (·.flag), key.1, key.2⟩ :: ⟨r, r.all (·.flag), k.key, k.kflags⟩ :: ys } := by
  have f := R.facts h
  have hnn : k.items.length = l.length + r.length := by rw [hk]; simp
  have hil : ilen k.items = ilen l + ilen r := by rw [hk, ilen_append]
  have hlen : P.chunks.length = xs.length + 1 + ys.length := by rw [h.eq]; simp; omega
  have hhl := hdrLen_le P.chunks.length
  have hc := h.len
  have hcnt := R.count
  have hl1 := limit_ge P.leaf
  have hl2 := R.slim
  have hic := R.icount_lt
  have hds := f.dend
  have hft := f.fit
  have hke := R.kend
  have c1 := csize_eq k
  have hst := hdrLen_step P.chunks.length
  have hi1 : icount P.chunks = icount xs + (k.items.length + icount ys) := by
    rw [h.eq, icount_append, icount_cons]
  have hk1 : ksize P.chunks = ksize xs + (k.key.length + ksize ys) := by
    rw [h.eq, ksize_append, ksize_cons]
  have hz4 := hdrLen_mod P.chunks.length
  have hz4' := hdrLen_mod (P.chunks.length + 1)
  have hx4 := f.xok.ksize
  have hkk4 := f.kok.2.1
  have hxd := f.xok.dsize
  have hsm := R.smod
  have ha1 := al_le l.length
  have ha2 := al_le r.length
  have ha3 : al (l.length + r.length) ≤ al l.length + al r.length := by unfold al; omega
  have ha4 := al_le (l.length + r.length)
  have ha5 : al l.length ≤ al (l.length + r.length) := al_mono (by omega)
  have ha6 : al r.length ≤ al (l.length + r.length) := al_mono (by omega)
  have b1 := al_mod l.length
  have b2 := al_mod r.length
  have b3 := al_mod (l.length + r.length)
  have hlok : ∀ x ∈ l, x.ok := fun x hx => f.kok.1 x (by rw [hk]; simp [hx])
  have hrok : ∀ x ∈ r, x.ok := fun x hx => f.kok.1 x (by rw [hk]; simp [hx])
  have il4 := ilen_mod hlok
  have ir4 := ilen_mod hrok
  obtain ⟨k1, hk1'⟩ : ∃ x : Chunk, x = ⟨l, l.all (·.flag), key.1, key.2⟩ := ⟨_, rfl⟩
  obtain ⟨k2, hk2'⟩ : ∃ x : Chunk, x = ⟨r, r.all (·.flag), k.key, k.kflags⟩ := ⟨_, rfl⟩
  have i1 : k1.items = l := by rw [hk1']
  have i2 : k2.items = r := by rw [hk2']
  have q1 : k1.key = key.1 := by rw [hk1']
  have q2 : k2.key = k.key := by rw [hk2']
  have s1 : csize k1 = al l.length + ilen l := by rw [csize_eq, i1]
  have s2 : csize k2 = al r.length + ilen r := by rw [csize_eq, i2]
  have w1 : k1.fixed = l.all (·.flag) ∧ k1.kflags = key.2 := by rw [hk1']; exact ⟨rfl, rfl⟩
  have w2 : k2.fixed = r.all (·.flag) ∧ k2.kflags = k.kflags := by rw [hk2']; exact ⟨rfl, rfl⟩
  rw [← hk1', ← hk2']
  clear hk1' hk2'
  have hn' : (xs ++ k1 :: k2 :: ys).length = P.chunks.length + 1 := by simp; omega
  have hdl : dsize (xs ++ k1 :: k2 :: ys) = dsize xs + (csize k1 + (csize k2 + dsize ys)) := by
    rw [dsize_append, dsize_cons, dsize_cons]
  have hkl : ksize (xs ++ k1 :: k2 :: ys) = ksize xs + (key.1.length + (k.key.length + ksize ys)) := by
    rw [ksize_append, ksize_cons, ksize_cons, q1, q2]
  have hkll : ksize P.chunks.dropLast = ksize xs + ksize (k :: ys).dropLast := by
    rw [h.eq, List.dropLast_append_of_ne_nil (by simp), ksize_append]
  have hkyy : ys ≠ [] → ksize (k :: ys).dropLast = k.key.length + ksize ys.dropLast := by
    intro hy
    rw [List.dropLast_cons_of_ne_nil hy, ksize_cons]
  have hkyy2 : ksize (k2 :: ys).dropLast = ksize (k :: ys).dropLast := by
    by_cases hy : ys = []
    · subst hy; rfl
    · rw [List.dropLast_cons_of_ne_nil hy, List.dropLast_cons_of_ne_nil hy, ksize_cons, ksize_cons, q2]
  rw [hnn] at M hi1 hfit c1 ⊢
  obtain ⟨ds, hdse⟩ : ∃ x, x = hdrLen (P.chunks.length + 1) - hdrLen P.chunks.length := ⟨_, rfl⟩
  obtain ⟨dz, hdze⟩ : ∃ x, x = al r.length + al l.length - al (l.length + r.length) := ⟨_, rfl⟩
  rw [← hdse, ← hdze]
  rw [← hdze] at hfit
  rw [← hdse, ← hdze] at M
  have hpe : hdrLen (P.chunks.length + 1) = hdrLen P.chunks.length + ds := by omega
  refine ⟨R.fine, R.leaf, R.right, ?_, by simp, ?_, ?_, ?_, ?_, ?_, R.smod, R.slim, ?_, ?_, ?_, ?_, ?_, ?_⟩
  · simp only; rw [hn']; omega
  · simp only
    rw [R.items, icount_append, icount_cons, icount_cons, i1, i2]
    omega
  · simp only
    rw [hn', hkl]
    omega
  · simp only
    rw [hdl]
    omega
  · simp only
    rw [hdl]
    omega
  · simp only
    rw [hn', hkl]
    omega
  · simp only
    rw [Aligned.append, Aligned.cons, Aligned.cons, i1, i2, q1, q2, w1.2, w2.2]
    exact ⟨f.xok, ⟨hlok, hk4, hfl⟩, ⟨hrok, hkk4, f.kok.2.2⟩, f.yok⟩
  · simp only
    rw [hn', List.dropLast_append_of_ne_nil (by simp), List.dropLast_cons_of_ne_nil (by simp), ksize_append,
      ksize_cons, hkyy2, q1]
    omega
  · intro hr
    have := R.kright hr
    simp only
    rw [h.eq] at this
    have e2 := (ksize_upd (xs ++ [k1]) k k2 ys q2).2
    have e3 : lastKey (xs ++ [k1] ++ k :: ys) = lastKey (xs ++ k :: ys) := by
      rcases List.eq_nil_or_concat ys with rfl | ⟨zs, z, rfl⟩
      · unfold lastKey
        rw [List.getLast?_concat, List.getLast?_concat]
      · unfold lastKey
        simp only [List.concat_eq_append]
        have a1 : xs ++ [k1] ++ k :: (zs ++ [z]) = (xs ++ [k1] ++ k :: zs) ++ [z] := by simp
        have a2 : xs ++ k :: (zs ++ [z]) = (xs ++ k :: zs) ++ [z] := by simp
        rw [a1, a2, List.getLast?_concat, List.getLast?_concat]
    rw [e3] at e2
    have e4 : xs ++ [k1] ++ k2 :: ys = xs ++ k1 :: k2 :: ys := by simp
    rw [e4] at e2
    rw [e2]
    exact this
  · simp only
    rw [hn', DescsAt.append, Nat.zero_add, Nat.zero_add, hpe]
    refine ⟨?_, ?_, ?_, ?_⟩
    · refine f.dxs.shiftK f.xok R.smod ?_
      · intro j p o q fx fl hj hp4 hq4 hpd hoc hq hfl hd
        rw [Nat.zero_add] at hd ⊢
        have hfx : hdrLen P.chunks.length + q + ds < 256 := by
          have := ksize_dropLast (P := xs) (by intro h0; rw [h0] at hj; simp at hj)
          omega
        have := M.dlow j _ _ _ fx fl (by omega) (by omega) (by omega) (by omega) (by omega) hfx hfl hd
        rw [this]
        simp only [Desc.mk.injEq, and_true, true_and]
        omega
    · rw [M.dmid, w1.1, w1.2]
      simp only [Desc.mk.injEq, and_true, true_and]
      omega
    · rw [M.dmid2, w2.1, w2.2, i1, q1, s1]
      simp only [Desc.mk.injEq, and_true, true_and]
      omega
    · refine f.dys.shiftK f.yok ?_ ?_
      · have := f.amod
        omega
      · intro j p o q fx fl hj hp4 hq4 hpd hoc hq hfl hd
        have := M.dhigh (xs.length + 1 + j) _ _ _ fx fl (by omega) (by omega) (by have := f.amod; omega) (by omega)
          (by omega) (by omega) (by have := hkyy (by intro h0; rw [h0] at hj; simp at hj); omega) hfl hd
        have ej : xs.length + 1 + 1 + j = xs.length + 1 + j + 1 := by omega
        rw [ej, this, s1, s2, i1, i2, q1, q2]
        simp only [Desc.mk.injEq, and_true, true_and]
        omega
  · simp only
    have hkk := R.keys
    rw [hn', kdata_append, kdata_cons, kdata_cons, At.append, At.append, q1, q2, kdata_length, hpe]
    obtain ⟨z, hz⟩ : ∃ x, x = hdrLen P.chunks.length := ⟨_, rfl⟩
    rw [← hz] at hkk
    rw [h.eq, kdata_append, kdata_cons, At.append, kdata_length] at hkk
    subst hz
    refine ⟨hkk.1.frame fun i hi => ?_, M.keyc, hkk.2.frame fun i hi => ?_⟩
    · rw [kdata_length] at hi
      exact M.keys1 i hi
    · rw [List.length_append, kdata_length] at hi
      exact M.keys2 i hi
  · simp only
    rw [ChunksAt.append]
    have h1 := f.chunk
    unfold ChunkAt at h1
    rw [hnn, hk, iarr_append, idata_append, At.append, At.append, iarr_length, idata_length] at h1
    obtain ⟨⟨ca1, ca2⟩, cd1, cd2⟩ := h1
    refine ⟨f.before.same M.low, ?_, ?_, ?_⟩
    · unfold ChunkAt
      rw [i1]
      refine ⟨?_, ?_⟩
      · have := iarr_shift (m' := m) (a' := P.start + dsize xs)
          (up := 0) (dn := al (l.length + r.length) - al l.length) ca1 (by omega) (by omega) M.arr1
        have e : al (l.length + r.length) + 0 - (al (l.length + r.length) - al l.length) = al l.length := by omega
        rw [e] at this
        exact this
      · refine cd1.frame fun i hi => ?_
        rw [idata_length] at hi
        exact M.data1 i hi
    · unfold ChunkAt
      rw [i2, s1]
      refine ⟨?_, ?_⟩
      · have := iarr_shift (m' := m) (a' := P.start + dsize xs + (al l.length + ilen l))
          (up := 0) (dn := al (l.length + r.length) + ilen l - al r.length) ca2 (by omega) (by omega) M.arr2
        have e : al (l.length + r.length) + ilen l + 0 - (al (l.length + r.length) + ilen l - al r.length) =
          al r.length := by omega
        rw [e] at this
        exact this
      · refine cd2.frame fun i hi => ?_
        rw [idata_length] at hi
        exact M.data2 i (by omega)
    · rw [s1, s2]
      refine f.after.frame fun i hi => ?_
      have := M.data2 (ilen r + i) (by omega)
      have e1 : P.start + dsize xs + (al l.length + ilen l) + (al r.length + ilen r) + i =
        P.start + dsize xs + (al l.length + ilen l) + al r.length + (ilen r + i) := by omega
      rw [e1, this]
      congr 1
      omega

theorem splitAt_mid (mk : MkKey) (i : Nat) (xs : List Chunk) (k : Chunk) (ys : List Chunk) :
    splitAt mk i xs.length (xs ++ k :: ys) = xs ++
      ⟨k.items.take i, (k.items.take i).all (·.flag), (mk (k.items.getD i ⟨false, []⟩).words (k.items.getD i ⟨false, []⟩).flag).1,
        (mk (k.items.getD i ⟨false, []⟩).words (k.items.getD i ⟨false, []⟩).flag).2⟩ ::
      ⟨k.items.drop i, (k.items.drop i).all (·.flag), k.key, k.kflags⟩ :: ys := by
  induction xs with
  | nil => rfl
  | cons x xs ih => simp [splitAt, ih]

theorem Rep.keysEnd {s P} (R : Rep s P) : s.hikeysEnd = P.keysEnd := R.kend

theorem Rep.hikeysFree {s P} (R : Rep s P) (h : P.keysEnd < hikeysLimit P.leaf) : s.hikeysFree = Option.some P.keyRoom := by
  have h1 := R.keysEnd
  have h2 := R.leaf
  have h3 := R.count
  have hr := R.right
  unfold Pg.hikeysFree Page.keyRoom
  simp only
  rw [h1, h2, h3, hr, if_neg (by omega)]
  have e : decide (hikeysLimit P.leaf = 256) = !P.leaf := by cases P.leaf <;> rfl
  rw [e]
  congr 1
  obtain ⟨d, hd⟩ : ∃ d, d = hdrLen (P.chunks.length + 1) - hdrLen P.chunks.length := ⟨_, rfl⟩
  rw [← hd]
  obtain ⟨x, hx⟩ : ∃ x, x = (if (P.right && !P.leaf && decide (2 ≤ hikeysLimit P.leaf - P.keysEnd)) = true then
    hikeysLimit P.leaf - P.keysEnd - 2 else hikeysLimit P.leaf - P.keysEnd) := ⟨_, rfl⟩
  rw [← hx]
  split <;> omega

/-- Keys stay where their positions can be told (src/btree/page_chunks.c:1022-1057). -/
theorem Rep.keyRoom {s P n} (R : Rep s P) (h : P.keysEnd < hikeysLimit P.leaf) (h4 : 4 ≤ n) (hn : n ≤ P.keyRoom) :
    hdrLen (P.chunks.length + 1) + ksize P.chunks + n ≤ P.start ∧
      hdrLen (P.chunks.length + 1) + ksize P.chunks.dropLast + n < 256 := by
  have hst := hdrLen_step P.chunks.length
  have hl := R.slim
  have hk := ksize_dropLast R.some
  have hz := hdrLen_mod P.chunks.length
  have hks := R.aligned.ksize
  have hkr := R.kright
  unfold Page.keyRoom at hn
  unfold Page.keysEnd at h hn
  simp only at hn
  cases hleaf : P.leaf
  · have hlim : hikeysLimit false = 256 := rfl
    rw [hleaf] at hl h hn
    rw [hlim] at hl h hn
    cases hright : P.right
    · have := hkr hright
      rw [hright] at hn
      simp only [Bool.false_and, Bool.false_eq_true, if_false] at hn
      omega
    · rw [hright, if_pos (by simp; omega)] at hn
      omega
  · have hlim : hikeysLimit true = 128 := rfl
    rw [hleaf] at hl h hn
    rw [hlim] at hl h hn
    simp only [Bool.not_true, Bool.and_false, Bool.false_and, Bool.false_eq_true, if_false] at hn
    omega

theorem Rep.doSplit {s P c best mk} (R : Rep s P) (hm : MkOk mk) (hc : c < P.chunks.length)
    (hk4 : ∀ it, (P.chunk c).items[best]? = Option.some it → 4 ≤ (mk it.words it.flag).1.length) :
    Rep (s.splitIfNeeded mk (s.fill c) best) (P.split mk c best) := by
  obtain ⟨xs, ys, h⟩ := chunkSplit hc
  have f := R.facts h
  have hlen := h.len
  obtain ⟨sz, ad, f0⟩ : ∃ sz ad, s.fill c = ⟨c, 0, (P.chunk c).items.length, sz, ad⟩ := by
    have := f.fill
    rw [hlen] at this
    exact ⟨_, _, this⟩
  unfold Pg.splitIfNeeded Page.split
  simp only
  by_cases he : P.keysEnd < hikeysLimit P.leaf
  · rw [R.hikeysFree he, f0]
    simp only
    by_cases hi : best < (P.chunk c).items.length
    · obtain ⟨l, it, r, hk, hl⟩ := chunk_items_split hi
      have fi := R.item h hk
      rw [hl, hlen, f0] at fi
      simp only at fi
      have hget : (P.chunk c).items.getD best ⟨false, []⟩ = it := by
        rw [hk, ← hl]
        simp
      have hget? : (P.chunk c).items[best]? = Option.some it := by
        rw [hk, ← hl]
        simp
      have hrd : s.read (s.item ⟨c, best, (P.chunk c).items.length, sz, ad⟩)
          (s.itemSize ⟨c, best, (P.chunk c).items.length, sz, ad⟩) = it.words := by
        rw [fi.addr, fi.size]
        exact fi.mem.range_map
      have hfl : decide (itemFlags (s.mem (ad + best)) ≠ 0) = it.flag := by
        have := fi.flag
        simp only at this
        rw [this]
        cases it.flag <;> rfl
      rw [hget, hrd, hfl]
      have hmk := hm it.words it.flag
      have h4 := hk4 it hget?
      obtain ⟨key, hkey⟩ : ∃ x, x = mk it.words it.flag := ⟨_, rfl⟩
      rw [← hkey] at hmk h4 ⊢
      have hr := R.room
      by_cases hcond : P.keysEnd < hikeysLimit P.leaf ∧ 1 ≤ best ∧ best < (P.chunk c).items.length ∧
        key.1.length ≤ P.keyRoom ∧ al best + al ((P.chunk c).items.length - best) - al (P.chunk c).items.length ≤ P.room
      · rw [if_pos hcond, if_pos ⟨hcond.2.1, hcond.2.2.1, hcond.2.2.2.1, by rw [← hr]; exact hcond.2.2.2.2⟩]
        have hkr := R.keyRoom he h4 hcond.2.2.2.1
        have hlr : (it :: r).length = (P.chunk c).items.length - best := by rw [hk, ← hl]; simp
        have hroom := hcond.2.2.2.2
        have hfit : s.dataSize + (al (it :: r).length + al l.length - al (P.chunk c).items.length) ≤ 4096 := by
          have h1 := R.fit
          have h2 := R.dend
          have h3 : blck = 4096 := rfl
          rw [hlr, hl]
          rw [hr] at hroom
          omega
        obtain ⟨m, M, e⟩ := R.splitted h hk hmk.1 hmk.2 hfit hkr.1 hkr.2
        have R1 := R.ofSplitted (b := s.hikeysFixed && decide (key.2 % 2 = 1)) h hk hmk.1 hmk.2 hfit hkr.1 hkr.2 M
        simp only at e
        rw [hl, hlen, f0] at e
        simp only at e
        rw [e]
        have ht : (P.chunk c).items.take best = l := by rw [hk, ← hl]; simp
        have hd : (P.chunk c).items.drop best = it :: r := by rw [hk, ← hl]; simp
        have es : splitAt mk best c P.chunks = xs ++ ⟨l, l.all (·.flag), key.1, key.2⟩ ::
            ⟨it :: r, (it :: r).all (·.flag), (P.chunk c).key, (P.chunk c).kflags⟩ :: ys := by
          conv => lhs; rw [h.eq]
          rw [← hlen, splitAt_mid]
          rw [hlen, hget, ht, hd, ← hkey]
        rw [es]
        rw [hl] at R1
        exact R1
      · rw [if_neg hcond, if_neg (by
          intro h'
          exact hcond ⟨he, h'.1, h'.2.1, h'.2.2.1, by rw [hr]; exact h'.2.2.2⟩)]
        exact R
    · rw [if_neg (by omega), if_neg (by omega)]
      exact R
  · have e : s.hikeysFree = Option.none := by
      unfold Pg.hikeysFree
      simp only
      rw [R.leaf, R.keysEnd, if_pos (by omega)]
    rw [e, if_neg (by omega)]
    exact R

end Verif.PageChunks
