import Verif.PageChunks.Reorg

/-! # Bytes of B-tree pages: runs of operations, and marks -/

namespace Verif.PageChunks

theorem Rep.fresh (mem : Nat → Nat) (leaf : Bool) : Rep (Pg.fresh mem leaf) (Page.fresh leaf) := by
  have e : Pg.fresh mem leaf =
      { mem := dSet mem 0 ⟨hikeysLimit leaf / 2, 0, hdrLen 1 / 2, true, 0⟩, leaf := leaf, rightmost := true,
        hikeysFixed := true, chunksCount := 1, itemsCount := 0, hikeysEnd := hdrLen 1,
        dataSize := hikeysLimit leaf, bad := false } := by
    unfold Pg.fresh
    rw [Pg.setDesc_eq _ _ _ (by decide)]
  rw [e]
  refine ⟨rfl, rfl, rfl, rfl, by simp [Page.fresh], rfl, ?_, ?_, ?_, ?_, ?_, ?_, ?_, ?_, ?_, ?_, ?_, ?_⟩
  · cases leaf <;> rfl
  · cases leaf <;> rfl
  · cases leaf <;> decide
  · cases leaf <;> decide
  · cases leaf <;> decide
  · cases leaf <;> decide
  · intro c hc
    simp only [Page.fresh, List.mem_singleton] at hc
    subst hc
    exact ⟨by simp, rfl, by decide⟩
  · cases leaf <;> decide
  · intro h; simp [Page.fresh] at h
  · refine ⟨?_, trivial⟩
    have : ∀ d : Desc, mdesc (dSet mem 0 d) 0 = d.cut := by
      intro d
      rw [← Desc.of_lo_hi]
      unfold mdesc dSet
      simp
    simp only [this]
    cases leaf <;> decide
  · exact At.nil _ _
  · refine ⟨⟨?_, ?_⟩, trivial⟩
    · exact At.nil _ _
    · exact At.nil _ _

theorem Rep.step {s P mk op} (R : Rep s P) (hm : MkOk mk) (h : op.ok mk P) : Rep (s.step mk op) (P.step mk op) := by
  cases op with
  | insert c i it clear => exact R.doInsert h.1 h.2.1 h.2.2
  | replace c i it => exact R.doReplace h.1 h.2.1 h.2.2
  | rollback c i it rs =>
    obtain ⟨h1, h2, o, h3, h4⟩ := h
    exact R.doRollback h1 h2 h3 h4
  | cutFirst => exact R.doCutFirst h
  | delete c i => exact R.doDelete h.1 h.2
  | split c best => exact R.doSplit hm h.1 h.2
  | reorg right picks key kflags cut => exact (R.doReorg hm h.1 h.2.1 h.2.2).1

/-- Every operation is one that callers may do at that point. -/
def RunOk (mk : MkKey) : Page → List Op → Prop
  | _, [] => True
  | P, op :: ops => op.ok mk P ∧ RunOk mk (P.step mk op) ops

theorem Rep.run {s P mk ops} (R : Rep s P) (hm : MkOk mk) (h : RunOk mk P ops) :
    Rep (s.run mk ops) (P.run mk ops) := by
  induction ops generalizing s P with
  | nil => exact R
  | cons op ops ih => exact ih (R.step hm h.1) h.2

/-! ## The mark of the keys of a page -/

@[simp] theorem put_hf (s : Pg) (a v) : (s.put a v).hikeysFixed = s.hikeysFixed := rfl
@[simp] theorem move_hf (s : Pg) (a b c) : (s.move a b c).hikeysFixed = s.hikeysFixed := rfl
@[simp] theorem copyIn_hf (s : Pg) (a l) : (s.copyIn a l).hikeysFixed = s.hikeysFixed := rfl
@[simp] theorem setDesc_hf (s : Pg) (i d) : (s.setDesc i d).hikeysFixed = s.hikeysFixed := rfl

theorem loopUp_hf (f : Pg → Nat → Pg) (h : ∀ s i, (f s i).hikeysFixed = s.hikeysFixed) (n i : Nat) (s : Pg) :
    (loopUp f n i s).hikeysFixed = s.hikeysFixed := by
  induction n generalizing i s with
  | zero => rfl
  | succ n ih => rw [loopUp, ih, h]

theorem loopUp_put_hf (a : Nat → Nat) (g : Pg → Nat → Nat) (n i : Nat) (s : Pg) :
    (loopUp (fun s i => s.put (a i) (g s i)) n i s).hikeysFixed = s.hikeysFixed := by
  apply loopUp_hf; intros; rfl

theorem loopUp_set_hf (a : Nat → Nat) (g : Pg → Nat → Desc) (n i : Nat) (s : Pg) :
    (loopUp (fun s i => s.setDesc (a i) (g s i)) n i s).hikeysFixed = s.hikeysFixed := by
  apply loopUp_hf; intros; rfl

theorem loopDown_hf (f : Pg → Nat → Pg) (h : ∀ s i, (f s i).hikeysFixed = s.hikeysFixed) (n i : Nat) (s : Pg) :
    (loopDown f n i s).hikeysFixed = s.hikeysFixed := by
  induction n generalizing i s with
  | zero => rfl
  | succ n ih => rw [loopDown, ih, h]

theorem loopDown_put_hf (a : Nat → Nat) (g : Pg → Nat → Nat) (n i : Nat) (s : Pg) :
    (loopDown (fun s i => s.put (a i) (g s i)) n i s).hikeysFixed = s.hikeysFixed := by
  apply loopDown_hf; intros; rfl

theorem loopDown_set_hf (a : Nat → Nat) (g : Pg → Nat → Desc) (n i : Nat) (s : Pg) :
    (loopDown (fun s i => s.setDesc (a i) (g s i)) n i s).hikeysFixed = s.hikeysFixed := by
  apply loopDown_hf; intros; rfl

theorem resizeItem_hf (s : Pg) (l n) : (s.resizeItem l n).hikeysFixed = s.hikeysFixed := by
  unfold Pg.resizeItem
  simp only
  split
  · rfl
  · refine (loopUp_put_hf _ _ _ _ _).trans ?_
    exact loopUp_set_hf _ _ _ _ _

theorem insertItem_hf (s : Pg) (l n) : (s.insertItem l n).hikeysFixed = s.hikeysFixed := by
  unfold Pg.insertItem
  simp only [put_hf]
  refine (loopDown_put_hf _ _ _ _ _).trans ?_
  split
  · refine (loopUp_put_hf _ _ _ _ _).trans ?_
    exact loopUp_set_hf _ _ _ _ _
  · exact loopUp_set_hf _ _ _ _ _

theorem writeItem_hf (s : Pg) (l w f) : (s.writeItem l w f).hikeysFixed = s.hikeysFixed := rfl

theorem clearFixed_hf (s : Pg) (l f) : (s.clearFixed l f).hikeysFixed = s.hikeysFixed := by
  unfold Pg.clearFixed; split <;> rfl

theorem doInsert_hf (s : Pg) (c i it b) : (s.doInsert c i it b).hikeysFixed = s.hikeysFixed := by
  unfold Pg.doInsert
  simp only
  split
  · split
    · rw [clearFixed_hf, writeItem_hf, insertItem_hf]
    · rw [writeItem_hf, insertItem_hf]
  · rfl

theorem doReplace_hf (s : Pg) (c i it) : (s.doReplace c i it).hikeysFixed = s.hikeysFixed := by
  unfold Pg.doReplace
  simp only
  split
  · rw [clearFixed_hf, writeItem_hf]
    split
    · rw [resizeItem_hf]
    · rfl
  · rfl

theorem doRollback_hf (s : Pg) (c i it b) : (s.doRollback c i it b).hikeysFixed = s.hikeysFixed := by
  unfold Pg.doRollback
  simp only [put_hf]
  split
  · rw [resizeItem_hf]; rfl
  · rfl

theorem doCutFirst_hf (s : Pg) : s.doCutFirst.hikeysFixed = s.hikeysFixed := by
  unfold Pg.doCutFirst
  simp only [copyIn_hf]
  rw [resizeItem_hf]

theorem eraseItem_hf (s : Pg) (l) : (s.eraseItem l).hikeysFixed = s.hikeysFixed := by
  unfold Pg.eraseItem
  refine (loopUp_set_hf _ _ _ _ _).trans ?_
  simp only [move_hf]
  split
  · refine (loopUp_put_hf _ _ _ _ _).trans ?_
    exact loopUp_put_hf _ _ _ _ _
  · exact loopUp_put_hf _ _ _ _ _

theorem splitChunk_hf (s : Pg) (l z) : (s.splitChunk l z).hikeysFixed = s.hikeysFixed := by
  unfold Pg.splitChunk
  simp only [setDesc_hf]
  refine (loopDown_set_hf _ _ _ _ _).trans ?_
  refine (loopUp_set_hf _ _ _ _ _).trans ?_
  simp only [move_hf, copyIn_hf]
  exact loopUp_put_hf _ _ _ _ _

/-- The flags of the keys of a page; the last chunk of a rightmost page has no key. -/
def Page.keyFlags (P : Page) : List Nat :=
  if P.right then (P.chunks.map (·.kflags)).dropLast else P.chunks.map (·.kflags)

/-- The page is marked only if all its keys have the fixed format. -/
def KeysMarked (s : Pg) (P : Page) : Prop := s.hikeysFixed = true → ∀ f ∈ P.keyFlags, f % 2 = 1

theorem KeysMarked.keep {s s' P P'} (K : KeysMarked s P) (h1 : s'.hikeysFixed = s.hikeysFixed)
    (h2 : P'.keyFlags = P.keyFlags) : KeysMarked s' P' := by
  unfold KeysMarked
  rw [h1, h2]
  exact K

theorem upd_flags (P : Page) (c : Nat) (f : Chunk → Chunk) (h : ∀ k, (f k).kflags = k.kflags) :
    (P.upd c f).keyFlags = P.keyFlags := by
  have e : (P.upd c f).chunks.map (·.kflags) = P.chunks.map (·.kflags) := by
    apply List.ext_getElem?
    intro j
    unfold Page.upd
    rw [List.getElem?_map, List.getElem?_map, List.getElem?_modify]
    cases P.chunks[j]? with
    | none => rfl
    | some x =>
      simp only [Option.map_some]
      split
      · show some (f x).kflags = _
        rw [h]
      · rfl
  unfold Page.keyFlags
  rw [e]
  rfl

theorem Rep.flags {s P} (R : Rep s P) (c : Nat) (hc : c < P.chunks.length) :
    (s.desc c).flags = (P.chunk c).kflags := by
  obtain ⟨xs, ys, h⟩ := chunkSplit hc
  have h3 := (R.facts h).desc
  rw [h.len] at h3
  rw [h3]

theorem chunk_map (P : Page) (c : Nat) (hc : c < P.chunks.length) :
    (P.chunks.map (·.kflags))[c]? = some (P.chunk c).kflags := by
  unfold Page.chunk
  rw [List.getElem?_map, List.getD_eq_getElem?_getD, List.getElem?_eq_getElem hc]
  rfl

/-- If the mark is computed from all descriptors, it is right. -/
theorem Rep.allMarked {s P} (R : Rep s P)
    (h : s.hikeysFixed = (List.range s.chunksCount).all fun i => decide ((s.desc i).flags % 2 = 1)) :
    KeysMarked s P := by
  intro hf f hm
  rw [h, List.all_eq_true] at hf
  have hm' : f ∈ P.chunks.map (·.kflags) := by
    unfold Page.keyFlags at hm
    split at hm
    · exact (List.dropLast_sublist _).subset hm
    · exact hm
  obtain ⟨c, hc, e⟩ := List.mem_iff_getElem.mp hm'
  rw [List.length_map] at hc
  have h1 := hf c (by rw [List.mem_range, R.count]; exact hc)
  rw [R.flags c hc] at h1
  have h2 := chunk_map P c hc
  rw [List.getElem?_eq_getElem (by simpa using hc), e] at h2
  injection h2 with h2
  rw [h2]
  exact of_decide_eq_true h1

theorem KeysMarked.delete {s P c i} (R : Rep s P) (K : KeysMarked s P) (hc : c < P.chunks.length)
    (hi : i < (P.chunk c).items.length) :
    KeysMarked (s.deleteItem { s.fill c with item := i }) (P.delete c i) := by
  have R' := R.doDelete hc hi
  have hflags : ∀ x, (P.delete c i).chunks = joinAt x (P.upd c fun k => { k with items := k.items.eraseIdx i }).chunks →
      joinAt x (P.upd c fun k => { k with items := k.items.eraseIdx i }).chunks =
        (P.upd c fun k => { k with items := k.items.eraseIdx i }).chunks →
      (P.delete c i).keyFlags = P.keyFlags := by
    intro x h1 h2
    rw [← upd_flags P c (fun k => { k with items := k.items.eraseIdx i }) (fun _ => rfl)]
    unfold Page.keyFlags
    rw [h1, h2]
    unfold Page.delete
    simp only
    split <;> rfl
  have hcount : ({ s.fill c with item := i } : Loc).count = (P.chunk c).items.length := by
    obtain ⟨xs, ys, h⟩ := chunkSplit hc
    have := (R.facts h).fill
    rw [h.len] at this
    rw [this]
  have hchunk : ({ s.fill c with item := i } : Loc).chunk = c := by
    obtain ⟨xs, ys, h⟩ := chunkSplit hc
    have := (R.facts h).fill
    rw [h.len] at this
    rw [this]
  rw [Pg.deleteItem_eq, hcount, hchunk] at R' ⊢
  by_cases h1 : (P.chunk c).items.length = 1
  · rw [if_pos (by omega)] at R' ⊢
    by_cases h2 : 0 < c
    · rw [if_pos h2] at R' ⊢
      exact R'.allMarked rfl
    · rw [if_neg h2] at R' ⊢
      by_cases h3 : c + 1 < (s.eraseItem { s.fill c with item := i }).chunksCount
      · rw [if_pos h3] at R' ⊢
        exact R'.allMarked rfl
      · rw [if_neg h3] at R' ⊢
        refine K.keep (eraseItem_hf _ _) ?_
        have hcnt : (s.eraseItem { s.fill c with item := i }).chunksCount = s.chunksCount := by
          obtain ⟨xs, ys, h⟩ := chunkSplit hc
          obtain ⟨l, o, r, hk, hl⟩ := chunk_items_split hi
          have R1 := R.erase h hk
          rw [hl, h.len] at R1
          rw [R1.count, R.count, h.eq]
          simp
        rw [hcnt, R.count] at h3
        have hl : P.chunks.length = 1 := by omega
        obtain ⟨k, hk⟩ := List.length_eq_one_iff.mp hl
        refine hflags 0 ?_ ?_
        · unfold Page.delete
          simp only
          rw [if_pos h1]
          have : c - 1 = 0 := by omega
          rw [this]
        · have hc0 : c = 0 := by omega
          subst hc0
          unfold Page.upd
          rw [hk]
          rfl
  · rw [if_neg (by omega)] at R' ⊢
    refine K.keep (eraseItem_hf _ _) ?_
    unfold Page.delete
    simp only
    rw [if_neg h1]
    exact upd_flags _ _ _ (fun _ => rfl)

theorem desc_setDesc (s : Pg) (i : Nat) (d : Desc) : ((s.setDesc i d).desc i).flags % 2 = d.flags % 2 := by
  have h1 : (s.setDesc i d).desc i = d.cut := by
    rw [← Desc.of_lo_hi]
    unfold Pg.desc Pg.setDesc Pg.put
    simp
  rw [h1]
  unfold Desc.cut
  simp only
  omega

theorem splitIfNeeded_hf (mk : MkKey) (s : Pg) (l : Loc) (best : Nat) :
    s.splitIfNeeded mk l best = s ∨ (s.splitIfNeeded mk l best).hikeysFixed =
      (s.hikeysFixed && decide (((s.splitIfNeeded mk l best).desc l.chunk).flags % 2 = 1)) := by
  unfold Pg.splitIfNeeded
  split
  · exact Or.inl rfl
  · simp only
    split
    · right
      simp only [setDesc_hf, copyIn_hf, splitChunk_hf]
      congr 2
      rw [show ∀ (t : Pg) (b : Bool), ({ t with hikeysFixed := b } : Pg).desc l.chunk = t.desc l.chunk from
        fun _ _ => rfl, desc_setDesc]
    · exact Or.inl rfl

theorem KeysMarked.split {s P c best mk} (R : Rep s P) (K : KeysMarked s P) (hm : MkOk mk) (hc : c < P.chunks.length)
    (hk4 : ∀ it, (P.chunk c).items[best]? = some it → 4 ≤ (mk it.words it.flag).1.length) :
    KeysMarked (s.splitIfNeeded mk (s.fill c) best) (P.split mk c best) := by
  have R' := R.doSplit hm hc hk4
  have hchunk : (s.fill c).chunk = c := by unfold Pg.fill; split <;> rfl
  have hr : (P.split mk c best).right = P.right := by unfold Page.split; simp only; split <;> rfl
  rcases splitIfNeeded_hf mk s (s.fill c) best with h | h
  · rw [h] at R' ⊢
    refine K.keep rfl ?_
    unfold Page.keyFlags
    rw [hr, ← R'.read, R.read]
  · rw [hchunk] at h
    intro hf
    rw [hf] at h
    have h' := h.symm
    rw [Bool.and_eq_true] at h'
    have hfl := of_decide_eq_true h'.2
    have hold := K h'.1
    have hlen : P.chunks.length ≤ (P.split mk c best).chunks.length := by
      unfold Page.split
      simp only
      split
      · obtain ⟨xs, ys, h⟩ := chunkSplit hc
        rw [← h.len, h.eq, splitAt_mid]
        simp
      · exact Nat.le_refl _
    rw [R'.flags c (by omega)] at hfl
    unfold Page.split at hfl ⊢
    simp only at hfl ⊢
    split
    · next hcond =>
      rw [if_pos hcond] at hfl
      obtain ⟨xs, ys, h⟩ := chunkSplit hc
      unfold Page.keyFlags at hold ⊢
      simp only [Page.chunk] at hold hfl ⊢
      have hq := splitAt_mid mk best xs (P.chunk c) ys
      rw [← h.eq, h.len] at hq
      rw [hq] at hfl ⊢
      have hg : ∀ a b : Chunk, (xs ++ a :: b :: ys).getD c .none = a := by
        intro a b
        rw [← h.len]
        simp
      rw [hg] at hfl
      simp only [List.map_append, List.map_cons] at hfl ⊢
      intro f hf
      have key : f ∈ (if P.right then (P.chunks.map (·.kflags)).dropLast else P.chunks.map (·.kflags)) ∨
          f % 2 = 1 := by
        rw [h.eq]
        simp only [List.map_append, List.map_cons]
        have hd : ∀ (l : List Nat) (a : Nat) (r : List Nat), (l ++ a :: r).dropLast = l ++ (a :: r).dropLast := by
          intro l a r; rw [List.dropLast_append_of_ne_nil (by simp)]
        split at hf
        · next hr => 
          rw [if_pos hr]
          rw [hd] at hf ⊢
          rw [List.dropLast_cons_of_ne_nil (by simp)] at hf
          rw [List.mem_append, List.mem_cons] at hf
          rw [List.mem_append]
          rcases hf with hf | hf | hf
          · exact Or.inl (Or.inl hf)
          · rw [hf]; exact Or.inr hfl
          · exact Or.inl (Or.inr hf)
        · next hr =>
          rw [if_neg hr]
          rw [List.mem_append, List.mem_cons] at hf
          rw [List.mem_append]
          rcases hf with hf | hf | hf
          · exact Or.inl (Or.inl hf)
          · rw [hf]; exact Or.inr hfl
          · exact Or.inl (Or.inr hf)
      rcases key with hk | hk
      · exact hold f hk
      · exact hk
    · exact hold

theorem KeysMarked.reorg {s P mk right picks key kflags cut} (R : Rep s P) (K : KeysMarked s P) (hm : MkOk mk)
    (h : (Op.reorg right picks key kflags cut).ok mk P) :
    KeysMarked (s.reorg mk cut right (picks.map s.pick) (key, kflags))
      (P.reorg mk cut right (picks.map P.pick) (key, kflags)) := by
  rcases (R.doReorg (cut := cut) hm h.1 h.2.1 h.2.2).2 with ⟨h1, h2⟩ | ⟨h1, h2, h3⟩
  · rw [h1, h2]; exact K
  · intro hf
    rw [h3, Bool.and_eq_true] at hf
    unfold Page.keyFlags
    rw [h1]
    have hall := List.all_eq_true.mp hf.1
    cases right with
    | true =>
      simp only [if_true]
      intro f hm
      rw [← List.map_dropLast, List.mem_map] at hm
      obtain ⟨k, hk, rfl⟩ := hm
      exact of_decide_eq_true (hall k hk)
    | false =>
      simp only [Bool.false_eq_true, if_false]
      intro f hm
      obtain ⟨k, hk, rfl⟩ := List.mem_map.mp hm
      have hne : (P.reorg mk cut false (picks.map P.pick) (key, kflags)).chunks ≠ [] := List.ne_nil_of_mem hk
      rw [← List.dropLast_concat_getLast hne, List.mem_append, List.mem_singleton] at hk
      rcases hk with hk | hk
      · exact of_decide_eq_true (hall k hk)
      · rw [List.getLast?_eq_some_getLast hne, Option.map_some] at h2
        injection h2 with h2
        rw [← hk] at h2
        rw [h2]
        simpa using hf.2

theorem KeysMarked.step {s P mk op} (R : Rep s P) (K : KeysMarked s P) (hm : MkOk mk) (h : op.ok mk P) :
    KeysMarked (s.step mk op) (P.step mk op) := by
  cases op with
  | insert c i it clear =>
    refine K.keep (doInsert_hf ..) ?_
    unfold Page.step Page.insert
    simp only
    split
    · exact upd_flags _ _ _ (fun _ => rfl)
    · rfl
  | replace c i it =>
    refine K.keep (doReplace_hf ..) ?_
    unfold Page.step Page.replace
    simp only
    split
    · exact upd_flags _ _ _ (fun _ => rfl)
    · rfl
  | rollback c i it rs => exact K.keep (doRollback_hf ..) (upd_flags _ _ _ (fun _ => rfl))
  | cutFirst => exact K.keep (doCutFirst_hf ..) (upd_flags _ _ _ (fun _ => rfl))
  | delete c i => exact KeysMarked.delete R K h.1 h.2
  | split c best => exact KeysMarked.split R K hm h.1 h.2
  | reorg right picks key kflags cut => exact KeysMarked.reorg R K hm h

theorem KeysMarked.fresh (mem : Nat → Nat) (leaf : Bool) : KeysMarked (Pg.fresh mem leaf) (Page.fresh leaf) := by
  intro _ f hf
  simp [Page.keyFlags, Page.fresh] at hf

theorem KeysMarked.run {s P mk ops} (R : Rep s P) (K : KeysMarked s P) (hm : MkOk mk) (h : RunOk mk P ops) :
    KeysMarked (s.run mk ops) (P.run mk ops) := by
  induction ops generalizing s P with
  | nil => exact K
  | cons op ops ih => exact ih (R.step hm h.1) (KeysMarked.step R K hm h.1) h.2

end Verif.PageChunks
