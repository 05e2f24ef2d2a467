import Verif.PageChunks.Read

/-! # Bytes of B-tree pages: a change of one chunk -/

namespace Verif.PageChunks

theorem ksize_upd (xs : List Chunk) (k k' : Chunk) (ys : List Chunk) (h : k'.key = k.key) :
    ksize (xs ++ k' :: ys).dropLast = ksize (xs ++ k :: ys).dropLast ∧
    lastKey (xs ++ k' :: ys) = lastKey (xs ++ k :: ys) := by
  rcases List.eq_nil_or_concat ys with rfl | ⟨zs, z, rfl⟩
  · simp [lastKey, h]
  · have e (q : Chunk) : xs ++ q :: (zs ++ [z]) = (xs ++ q :: zs) ++ [z] := by simp
    simp only [List.concat_eq_append]
    rw [e, e, List.dropLast_concat, List.dropLast_concat]
    refine ⟨by simp [ksize_append, ksize_cons, h], ?_⟩
    unfold lastKey
    rw [List.getLast?_concat, List.getLast?_concat]

theorem Rep.icount_lt {s P} (R : Rep s P) : icount P.chunks ≤ 800 := by
  have h1 := R.aligned.icount
  have h2 := R.fit
  have h3 := R.slim
  have h4 := limit_ge P.leaf
  omega

/-- What is to be shown for a change of one chunk. -/
theorem Rep.update {s s' : Pg} {P c xs k ys k'} (R : Rep s P) (h : ChunkSplit P c xs k ys)
    (fine : s'.bad = false) (leaf : s'.leaf = s.leaf) (right : s'.rightmost = s.rightmost)
    (count : s'.chunksCount = s.chunksCount) (kend : s'.hikeysEnd = s.hikeysEnd)
    (items : s'.itemsCount + k.items.length = s.itemsCount + k'.items.length)
    (dend : s'.dataSize + csize k = s.dataSize + csize k') (fit : s'.dataSize ≤ 4096)
    (kkey : k'.key = k.key) (kfl : k'.kflags = k.kflags) (kok : ∀ it ∈ k'.items, it.ok)
    (mlow : ∀ x, hdrLen P.chunks.length ≤ x → x < P.start + dsize xs → s'.mem x = s.mem x)
    (dlow : ∀ j, j < c → mdesc s'.mem j = mdesc s.mem j)
    (dmid : mdesc s'.mem c = { mdesc s.mem c with fixed := k'.fixed })
    (dhigh : ∀ j p o q fx fl, c < j → j < P.chunks.length → p % 4 = 0 → q % 4 = 0 →
      P.start + dsize xs + csize k ≤ p → p ≤ 4096 → p + csize k' ≤ 4096 + csize k →
      icount xs + k.items.length ≤ o → o ≤ 800 →
      q < 256 → fl < 4 → mdesc s.mem j = ⟨p / 2, o, q / 2, fx, fl⟩ →
      mdesc s'.mem j = ⟨(p + csize k' - csize k) / 2, o + k'.items.length - k.items.length, q / 2, fx, fl⟩)
    (cmid : ChunkAt s'.mem (P.start + dsize xs) k'.items)
    (chigh : ∀ i, i < dsize ys →
      s'.mem (P.start + dsize xs + csize k' + i) = s.mem (P.start + dsize xs + csize k + i)) :
    Rep s' { P with chunks := xs ++ k' :: ys } := by
  have f := R.facts h
  have il := R.icount_lt
  obtain ⟨n, hn⟩ : ∃ n, n = P.chunks.length := ⟨_, rfl⟩
  have hn' : (xs ++ k' :: ys).length = n := by rw [hn, h.eq]; simp
  have hks : ksize (xs ++ k' :: ys) = ksize P.chunks := by
    rw [h.eq, ksize_append, ksize_append, ksize_cons, ksize_cons, kkey]
  have hkd : kdata (xs ++ k' :: ys) = kdata P.chunks := by
    rw [h.eq, kdata_append, kdata_append, kdata_cons, kdata_cons, kkey]
  have hu := ksize_upd xs k k' ys kkey
  have hds : dsize (xs ++ k' :: ys) = dsize xs + csize k' + dsize ys := by
    rw [dsize_append, dsize_cons]; omega
  have hdp : dsize P.chunks = dsize xs + csize k + dsize ys := by
    rw [h.eq, dsize_append, dsize_cons]; omega
  have hip : icount P.chunks = icount xs + k.items.length + icount ys := by
    rw [h.eq, icount_append, icount_cons]; omega
  have hdend := R.dend
  have hitems := R.items
  have hcnt := R.count
  have hkf := R.kfit
  have hfit := R.fit
  have hlen := h.len
  have hk4 := csize_mod f.kok.1
  have hk4' := csize_mod kok
  have hkl := R.klast
  have hkey4 := f.kok.2.1
  have hxs4 := f.xok.ksize
  have hstart := R.smod
  have hxd4 := f.xok.dsize
  have hnlen : n = xs.length + 1 + ys.length := by rw [hn, h.eq]; simp; omega
  refine ⟨fine, leaf.trans R.leaf, right.trans R.right, ?_, by simp, ?_, ?_, ?_, ?_, ?_, R.smod, R.slim, ?_, ?_, ?_,
    ?_, ?_, ?_⟩
  · rw [count, hcnt]; simp only [hn', hn]
  · simp only; rw [icount_append, icount_cons]; omega
  · simp only; rw [kend, R.kend, hn', hks, hn]
  · simp only; rw [hds]; omega
  · simp only; rw [hds]; omega
  · simp only; rw [hn', hks, hn]; exact hkf
  · simp only
    rw [Aligned.append, Aligned.cons]
    exact ⟨f.xok, ⟨kok, by rw [kkey]; exact f.kok.2.1, by rw [kfl]; exact f.kok.2.2⟩, f.yok⟩
  · simp only
    rw [hn', hu.1, ← h.eq, hn]
    exact hkl
  · simp only
    rw [hu.2, ← h.eq]
    exact R.kright
  · simp only
    rw [hn']
    subst hn
    rw [DescsAt.append]
    refine ⟨f.dxs.same fun j _ hj => dlow j (by omega), ?_, ?_⟩
    · rw [Nat.zero_add, Nat.zero_add, hlen, dmid]
      have := f.desc
      rw [Pg.desc_eq, hlen] at this
      rw [this, kfl]
    · rw [Nat.zero_add, Nat.zero_add]
      rw [kkey]
      refine f.dys.shift f.yok (by omega) ?_ ?_ ?_
      · have := hdrLen_mod P.chunks.length
        omega
      · intro hys
        have hkl2 := hkl
        obtain ⟨hl, hhl⟩ : ∃ x, x = hdrLen P.chunks.length := ⟨_, rfl⟩
        rw [← hhl] at hkl2 ⊢
        rw [h.eq, List.dropLast_append_of_ne_nil (by simp), List.dropLast_cons_of_ne_nil hys, ksize_append,
          ksize_cons] at hkl2
        omega
      · intro j p o q fx fl hj hp4 hq4 hpd hoc hq hfl hd
        have hl4 := hdrLen_mod P.chunks.length
        have := dhigh (xs.length + 1 + j) _ _ _ fx fl (by omega) (by omega) (by omega) (by omega) (by omega)
          (by omega) (by omega) (by omega) (by omega) hq hfl hd
        rw [this]
        simp only [Desc.mk.injEq, and_true, true_and]
        omega
  · simp only
    rw [hn', hkd, hn]
    refine R.keys.same fun x h1 h2 => mlow x h1 ?_
    rw [kdata_length] at h2
    omega
  · simp only
    rw [ChunksAt.append]
    refine ⟨f.before.same fun x h1 h2 => mlow x ?_ h2, cmid, f.after.frame chigh⟩
    omega

end Verif.PageChunks
