import Verif.PageChunks.Run

/-! # Bytes of B-tree pages: items as one list, marks of chunks -/

namespace Verif.PageChunks

/-- How many items are before a chunk. -/
def Page.before (P : Page) (c : Nat) : Nat := icount (P.chunks.take c)

theorem flatMap_length (P : List Chunk) : (P.flatMap (·.items)).length = icount P := by
  induction P with
  | nil => rfl
  | cons c P ih => rw [List.flatMap_cons, List.length_append, ih, icount_cons]

theorem items_mid {P : Page} {c xs k ys} (h : ChunkSplit P c xs k ys) :
    P.items = xs.flatMap (·.items) ++ (k.items ++ ys.flatMap (·.items)) := by
  unfold Page.items
  rw [h.eq, List.flatMap_append, List.flatMap_cons]

theorem before_mid {P : Page} {c xs k ys} (h : ChunkSplit P c xs k ys) :
    P.before c = (xs.flatMap (·.items)).length := by
  unfold Page.before
  rw [h.eq, ← h.len, flatMap_length]
  simp

theorem insertIdx_mid2 {α} (l m r : List α) (i : Nat) (x : α) (h : i ≤ m.length) :
    (l ++ (m ++ r)).insertIdx (l.length + i) x = l ++ (m.insertIdx i x ++ r) := by
  have e1 := insertIdx_mid (l ++ m.take i) (m.drop i ++ r) x
  have e2 := insertIdx_mid (m.take i) (m.drop i) x
  have hl : (m.take i).length = i := by simp; omega
  rw [hl, List.take_append_drop] at e2
  rw [List.length_append, hl, List.append_assoc, ← List.append_assoc (m.take i), List.take_append_drop] at e1
  rw [e1, e2]
  simp

theorem eraseIdx_mid2 {α} (l m r : List α) (i : Nat) (h : i < m.length) :
    (l ++ (m ++ r)).eraseIdx (l.length + i) = l ++ (m.eraseIdx i ++ r) := by
  rw [List.eraseIdx_append_of_length_le (by omega)]
  have : l.length + i - l.length = i := by omega
  rw [this, List.eraseIdx_append_of_lt_length h]

theorem upd_items {P : Page} {c xs k ys} (h : ChunkSplit P c xs k ys) (f : Chunk → Chunk) :
    (P.upd c f).items = xs.flatMap (·.items) ++ ((f k).items ++ ys.flatMap (·.items)) := by
  unfold Page.items Page.upd
  rw [h.eq, ← h.len, List.modify_mid, List.flatMap_append, List.flatMap_cons]

theorem Page.insert_items (P : Page) (c i : Nat) (it : Item) (clear : Bool) (hc : c < P.chunks.length)
    (hi : i ≤ (P.chunk c).items.length) :
    (P.insert c i it clear).items = P.items.insertIdx (P.before c + i) it ∨
      (P.insert c i it clear = P ∧
        P.room < al ((P.chunk c).items.length + 1) - al (P.chunk c).items.length + it.words.length) := by
  unfold Page.insert
  simp only
  split
  · left
    obtain ⟨xs, ys, h⟩ := chunkSplit hc
    rw [upd_items h, items_mid h, before_mid h, insertIdx_mid2 _ _ _ _ _ hi]
  · right
    exact ⟨rfl, by omega⟩

theorem joinAt_items (n : Nat) (l : List Chunk) : (joinAt n l).flatMap (·.items) = l.flatMap (·.items) := by
  fun_induction joinAt n l with
  | case1 a b l => simp [Chunk.join]
  | case2 n a l ih => simp [ih]
  | case3 => rfl

theorem Page.delete_items (P : Page) (c i : Nat) (hc : c < P.chunks.length)
    (hi : i < (P.chunk c).items.length) : (P.delete c i).items = P.items.eraseIdx (P.before c + i) := by
  obtain ⟨xs, ys, h⟩ := chunkSplit hc
  have e : (P.delete c i).items = (P.upd c fun k => { k with items := k.items.eraseIdx i }).items := by
    unfold Page.delete
    simp only
    split
    · unfold Page.items
      rw [joinAt_items]
    · rfl
  rw [e, upd_items h, items_mid h, before_mid h, eraseIdx_mid2 _ _ _ _ hi]

theorem splitAt_items (mk : MkKey) (i n : Nat) (l : List Chunk) :
    (splitAt mk i n l).flatMap (·.items) = l.flatMap (·.items) := by
  fun_induction splitAt mk i n l with
  | case1 a l => simp only [List.flatMap_cons, ← List.append_assoc, List.take_append_drop]
  | case2 n a l ih => simp [ih]
  | case3 => rfl

theorem Page.split_items (mk : MkKey) (P : Page) (c best : Nat) : (P.split mk c best).items = P.items := by
  unfold Page.split
  simp only
  split
  · exact splitAt_items ..
  · rfl

theorem mkChunks_flat (mk : MkKey) (leaf : Bool) (hk : List Nat × Nat) (first : Bool) (cs : List (List Item)) :
    (mkChunks mk leaf hk first cs).flatMap (·.items) = cs.flatten := by
  fun_induction mkChunks mk leaf hk first cs with
  | case1 => rfl
  | case2 first l => simp
  | case3 first l m r it key ih => simp [ih]

theorem cutLoop_flat {α} (klen size : α → Nat) (cut : Nat → Bool) (total hfree : Nat) (xs : List α)
    (i nc hl dl ds : Nat) (cur : List α) :
    (cutLoop klen size cut total hfree xs i nc hl dl ds cur).flatten = cur ++ xs := by
  induction xs generalizing i nc hl dl ds cur with
  | nil => simp [cutLoop]
  | cons x xs ih =>
    rw [cutLoop]
    split
    · rw [ih]; simp
    · split
      · rw [List.flatten_cons, ih]; simp
      · rw [ih]; simp

theorem cutChunks_flat {α} (klen size : α → Nat) (cut : Nat → Bool) (leaf right : Bool) (hk : List Nat)
    (its : List α) : (cutChunks klen size cut leaf right hk its).flatten = its := by
  cases its with
  | nil => rfl
  | cons x xs => exact cutLoop_flat ..

theorem Page.reorg_items (mk : MkKey) (cut : Nat → Bool) (P : Page) (right : Bool) (its : List Item)
    (hikey : List Nat × Nat) :
    (P.reorg mk cut right its hikey).items = its ∨
      (P.reorg mk cut right its hikey = P ∧
        blck < dataStart P.leaf (if right then [] else hikey.1) + (its.map (·.words.length)).sum + al its.length) := by
  unfold Page.reorg
  simp only
  have e1 : (if right then [] else hikey.1) = (if right then (([], 0) : List Nat × Nat) else hikey).1 := by
    cases right <;> rfl
  rw [e1]
  obtain ⟨hk, hh⟩ : ∃ hk, hk = if right then (([], 0) : List Nat × Nat) else hikey := ⟨_, rfl⟩
  rw [← hh]
  split
  · next h => exact Or.inr ⟨rfl, h⟩
  · left
    unfold Page.items
    rw [mkChunks_flat, cutChunks_flat]

/-! ## Marks of chunks -/

/-- A chunk is marked only if its items have the fixed format; the first item of an internal page does
not count. -/
def Page.Marked (P : Page) : Prop :=
  ∀ c k, P.chunks[c]? = some k → k.fixed = true → ∀ i it, k.items[i]? = some it →
    it.flag = true ∨ (P.leaf = false ∧ c = 0 ∧ i = 0)

/-- Operations that keep marks: insertions clear them, nothing is inserted before the first item of an
internal page, and contents brought back by a rollback have the fixed format. -/
def Op.marks (P : Page) : Op → Prop
  | .insert c i it clear => (clear = true ∨ it.flag = true) ∧
      (P.leaf = true ∨ c ≠ 0 ∨ i ≠ 0 ∨ (P.chunk 0).items = [])
  | .rollback _ _ it _ => it.flag = true
  | _ => True

theorem marked_mid {P : Page} {c xs k ys} (h : ChunkSplit P c xs k ys) :
    P.Marked ↔ (∀ j x, xs[j]? = some x → x.fixed = true → ∀ i it, x.items[i]? = some it →
        it.flag = true ∨ (P.leaf = false ∧ j = 0 ∧ i = 0)) ∧
      (k.fixed = true → ∀ i it, k.items[i]? = some it → it.flag = true ∨ (P.leaf = false ∧ c = 0 ∧ i = 0)) ∧
      (∀ x ∈ ys, x.fixed = true → ∀ it ∈ x.items, it.flag = true) := by
  have hlen := h.len
  unfold Page.Marked
  rw [h.eq]
  constructor
  · intro H
    refine ⟨?_, ?_, ?_⟩
    · intro j x hx
      have hj : j < xs.length := (List.getElem?_eq_some_iff.mp hx).1
      exact H j x (by rw [List.getElem?_append_left hj]; exact hx)
    · exact H c k (by rw [← hlen]; simp)
    · intro x hx hf it hit
      obtain ⟨j, hj, e⟩ := List.mem_iff_getElem.mp hx
      obtain ⟨i, hi, e2⟩ := List.mem_iff_getElem.mp hit
      have := H (xs.length + (j + 1)) x (by
        rw [List.getElem?_append_right (by omega)]
        have : xs.length + (j + 1) - xs.length = j + 1 := by omega
        rw [this, List.getElem?_cons_succ, List.getElem?_eq_getElem hj, e]) hf i it
        (by rw [List.getElem?_eq_getElem hi, e2])
      rcases this with h1 | h1
      · exact h1
      · omega
  · rintro ⟨h1, h2, h3⟩ j x hx hf i it hit
    by_cases hj : j < xs.length
    · rw [List.getElem?_append_left hj] at hx
      exact h1 j x hx hf i it hit
    · rw [List.getElem?_append_right (by omega)] at hx
      by_cases hj2 : j = xs.length
      · subst hj2
        simp at hx
        subst hx
        rw [hlen]
        exact h2 hf i it hit
      · obtain ⟨m, hm⟩ : ∃ m, j - xs.length = m + 1 := ⟨j - xs.length - 1, by omega⟩
        rw [hm, List.getElem?_cons_succ] at hx
        exact Or.inl (h3 x (List.mem_of_getElem? hx) hf it (List.mem_of_getElem? hit))

theorem chunkSplit_upd {P : Page} {c xs k ys} (h : ChunkSplit P c xs k ys) (f : Chunk → Chunk) :
    ChunkSplit (P.upd c f) c xs (f k) ys := by
  refine ⟨?_, h.len⟩
  unfold Page.upd
  simp only
  rw [h.eq, ← h.len, List.modify_mid]

theorem Page.Marked.upd {P : Page} {c xs k ys} (h : ChunkSplit P c xs k ys) (M : P.Marked) (f : Chunk → Chunk)
    (H : (f k).fixed = true → ∀ i it, (f k).items[i]? = some it → it.flag = true ∨ (P.leaf = false ∧ c = 0 ∧ i = 0)) :
    (P.upd c f).Marked := by
  rw [marked_mid (chunkSplit_upd h f)]
  rw [marked_mid h] at M
  exact ⟨M.1, H, M.2.2⟩

theorem upd_none (P : Page) (c : Nat) (f : Chunk → Chunk) (h : ¬ c < P.chunks.length) : P.upd c f = P := by
  unfold Page.upd
  rw [List.modify_eq_self (by omega)]

theorem Page.Marked.join {P : Page} (M : P.Marked) (n : Nat) : ({ P with chunks := joinAt n P.chunks } : Page).Marked := by
  by_cases hn : n + 1 < P.chunks.length
  · obtain ⟨xs, ys, h⟩ := chunkSplit (P := P) (c := n) (by omega)
    have hl := h.len
    obtain ⟨k, zs, hz⟩ : ∃ k zs, ys = k :: zs := by
      cases ys with
      | nil => exfalso; rw [h.eq] at hn; simp at hn; omega
      | cons k zs => exact ⟨k, zs, rfl⟩
    subst hz
    rw [marked_mid h] at M
    have e : joinAt n P.chunks = xs ++ (P.chunk n).join k :: zs := by
      have := joinAt_mid xs (P.chunk n) k zs
      rw [← h.eq, hl] at this
      exact this
    rw [marked_mid (P := { P with chunks := joinAt n P.chunks }) (c := n) ⟨e, hl⟩]
    refine ⟨M.1, ?_, fun x hx => M.2.2 x (List.mem_cons_of_mem _ hx)⟩
    unfold Chunk.join
    simp only
    intro hf i it hit
    rw [Bool.and_eq_true] at hf
    by_cases hi : i < (P.chunk n).items.length
    · rw [List.getElem?_append_left hi] at hit
      exact M.2.1 hf.1 i it hit
    · rw [List.getElem?_append_right (by omega)] at hit
      exact Or.inl (M.2.2 k (List.mem_cons_self ..) hf.2 it (List.mem_of_getElem? hit))
  · have e : joinAt n P.chunks = P.chunks := by
      generalize P.chunks = l at hn
      fun_induction joinAt n l with
      | case1 a b l => simp at hn
      | case2 n a l ih => rw [ih (by simp at hn; omega)]
      | case3 => rfl
    rw [e]
    exact M

theorem Page.Marked.delete {P : Page} (M : P.Marked) (c i : Nat) : (P.delete c i).Marked := by
  have h1 : (P.upd c fun k => { k with items := k.items.eraseIdx i }).Marked := by
    by_cases hc : c < P.chunks.length
    · obtain ⟨xs, ys, h⟩ := chunkSplit hc
      refine M.upd h _ ?_
      intro hf j it hit
      simp only at hf hit
      rw [List.getElem?_eraseIdx] at hit
      have := (marked_mid h).mp M
      split at hit
      · exact this.2.1 hf j it hit
      · rcases this.2.1 hf (j + 1) it hit with h2 | h2
        · exact Or.inl h2
        · omega
    · rw [upd_none _ _ _ hc]; exact M
  unfold Page.delete
  simp only
  split
  · exact h1.join _
  · exact h1

theorem Page.Marked.splitC {mk : MkKey} {P : Page} (M : P.Marked) (c best : Nat) (hc : c < P.chunks.length) :
    (P.split mk c best).Marked := by
  unfold Page.split
  simp only
  split
  · obtain ⟨xs, ys, h⟩ := chunkSplit hc
    have hM := (marked_mid h).mp M
    have hq := splitAt_mid mk best xs (P.chunk c) ys
    rw [← h.eq, h.len] at hq
    rw [marked_mid (P := { P with chunks := splitAt mk best c P.chunks }) (c := c) ⟨hq, h.len⟩]
    refine ⟨hM.1, ?_, ?_⟩
    · intro hf i it hit
      exact Or.inl (List.all_eq_true.mp hf it (List.mem_of_getElem? hit))
    · intro x hx
      rcases List.mem_cons.mp hx with hx | hx
      · subst hx
        intro hf it hit
        exact List.all_eq_true.mp hf it hit
      · exact hM.2.2 x hx
  · exact M

theorem fixedItems_flag {leaf first : Bool} {l : List Item} (h : fixedItems leaf first l = true) {i : Nat} {it : Item}
    (hit : l[i]? = some it) : it.flag = true ∨ (leaf = false ∧ first = true ∧ i = 0) := by
  unfold fixedItems at h
  by_cases hc : leaf = false ∧ first = true
  · rw [hc.1, hc.2] at h
    by_cases hi : i = 0
    · exact Or.inr ⟨hc.1, hc.2, hi⟩
    · left
      have h' : (l.drop 1).all (·.flag) = true := h
      refine List.all_eq_true.mp h' it ?_
      obtain ⟨j, hj⟩ : ∃ j, i = 1 + j := ⟨i - 1, by omega⟩
      rw [hj, ← List.getElem?_drop] at hit
      exact List.mem_of_getElem? hit
  · left
    have h' : l.all (·.flag) = true := by
      cases leaf <;> cases first <;> simp_all
    exact List.all_eq_true.mp h' it (List.mem_of_getElem? hit)

theorem mkChunks_marked (mk : MkKey) (leaf : Bool) (hk : List Nat × Nat) (first : Bool) (cs : List (List Item)) (c : Nat)
    (k : Chunk) (h : (mkChunks mk leaf hk first cs)[c]? = some k) (hf : k.fixed = true) (i : Nat) (it : Item)
    (hit : k.items[i]? = some it) : it.flag = true ∨ (leaf = false ∧ (first = true ∧ c = 0) ∧ i = 0) := by
  induction cs generalizing first c with
  | nil => simp [mkChunks] at h
  | cons l cs ih =>
    cases cs with
    | nil =>
      rw [mkChunks] at h
      cases c with
      | zero =>
        simp only [List.getElem?_cons_zero, Option.some.injEq] at h
        subst h
        rcases fixedItems_flag hf hit with h1 | h1
        · exact Or.inl h1
        · exact Or.inr ⟨h1.1, ⟨h1.2.1, rfl⟩, h1.2.2⟩
      | succ c => simp at h
    | cons m r =>
      rw [mkChunks] at h
      cases c with
      | zero =>
        simp only [List.getElem?_cons_zero, Option.some.injEq] at h
        subst h
        rcases fixedItems_flag hf hit with h1 | h1
        · exact Or.inl h1
        · exact Or.inr ⟨h1.1, ⟨h1.2.1, rfl⟩, h1.2.2⟩
      | succ c =>
        rw [List.getElem?_cons_succ] at h
        rcases ih false c h with h1 | h1
        · exact Or.inl h1
        · simp at h1

/-- After a reorganization marks are right, whatever they were before. -/
theorem Page.reorg_marked (mk : MkKey) (cut : Nat → Bool) (P : Page) (right : Bool) (its : List Item)
    (hikey : List Nat × Nat) :
    P.reorg mk cut right its hikey = P ∨ (P.reorg mk cut right its hikey).Marked := by
  unfold Page.reorg
  simp only
  obtain ⟨hk, hh⟩ : ∃ hk, hk = if right then (([], 0) : List Nat × Nat) else hikey := ⟨_, rfl⟩
  rw [← hh]
  split
  · exact Or.inl rfl
  · right
    intro c k hk hf i it hit
    rcases mkChunks_marked _ _ _ _ _ c k hk hf i it hit with h1 | h1
    · exact Or.inl h1
    · exact Or.inr ⟨h1.1, h1.2.1.2, h1.2.2⟩

theorem Page.Marked.step {mk : MkKey} {P : Page} {op : Op} (M : P.Marked) (h : op.ok mk P) (hm : op.marks P) :
    (P.step mk op).Marked := by
  cases op with
  | insert c i it clear =>
    obtain ⟨h1, h2, _⟩ := h
    obtain ⟨hm1, hm2⟩ := hm
    unfold Page.step Page.insert
    simp only
    split
    · obtain ⟨xs, ys, hs⟩ := chunkSplit h1
      refine M.upd hs _ ?_
      simp only
      intro hf j x hx
      rw [Bool.and_eq_true] at hf
      have hit : it.flag = true := by
        rcases hm1 with hm1 | hm1
        · subst hm1; simpa using hf.2
        · exact hm1
      have hM := ((marked_mid hs).mp M).2.1 hf.1
      rw [List.getElem?_insertIdx] at hx
      split at hx
      · exact hM j x hx
      · split at hx
        · next hj hji =>
          split at hx
          · simp only [Option.some.injEq] at hx
            subst hx
            exact Or.inl hit
          · simp at hx
        · rcases hM (j - 1) x hx with h3 | ⟨h3, h4, h5⟩
          · exact Or.inl h3
          · left
            exfalso
            rcases hm2 with hm2 | hm2 | hm2 | hm2
            · rw [h3] at hm2; simp at hm2
            · exact hm2 h4
            · omega
            · subst h4
              rw [hm2] at hx
              simp at hx
    · exact M
  | replace c i it =>
    obtain ⟨h1, h2, _⟩ := h
    unfold Page.step Page.replace
    simp only
    split
    · obtain ⟨xs, ys, hs⟩ := chunkSplit h1
      refine M.upd hs _ ?_
      simp only
      intro hf j x hx
      rw [Bool.and_eq_true] at hf
      have hM := ((marked_mid hs).mp M).2.1 hf.1
      rw [List.getElem?_modify] at hx
      cases hg : (P.chunk c).items[j]? with
      | none => rw [hg] at hx; simp at hx
      | some y =>
        rw [hg] at hx
        by_cases hij : i = j
        · simp only [if_pos hij] at hx
          simp at hx
          subst hx
          exact Or.inl hf.2
        · simp only [if_neg hij] at hx
          simp at hx
          subst hx
          exact hM j y hg
    · exact M
  | rollback c i it rs =>
    obtain ⟨h1, _⟩ := h
    obtain ⟨xs, ys, hs⟩ := chunkSplit h1
    refine M.upd hs _ ?_
    simp only
    intro hf j x hx
    have hM := ((marked_mid hs).mp M).2.1 hf
    rw [List.getElem?_modify] at hx
    cases hg : (P.chunk c).items[j]? with
    | none => rw [hg] at hx; simp at hx
    | some y =>
      rw [hg] at hx
      by_cases hij : i = j
      · simp only [if_pos hij] at hx
        simp at hx
        subst hx
        left
        have hfl : it.flag = true := hm
        cases rs
        · exact hfl
        · exact hfl
      · simp only [if_neg hij] at hx
        simp at hx
        subst hx
        exact hM j y hg
  | cutFirst =>
    by_cases hc : 0 < P.chunks.length
    · obtain ⟨xs, ys, hs⟩ := chunkSplit hc
      refine M.upd hs _ ?_
      simp only
      intro hf j x hx
      have hM := ((marked_mid hs).mp M).2.1 hf
      rw [List.getElem?_modify] at hx
      cases hg : (P.chunk 0).items[j]? with
      | none => rw [hg] at hx; simp at hx
      | some y =>
        rw [hg] at hx
        by_cases hij : 0 = j
        · simp only [if_pos hij] at hx
          simp at hx
          subst hx
          simpa using hM j y hg
        · simp only [if_neg hij] at hx
          simp at hx
          subst hx
          simpa using hM j y hg
    · unfold Page.step Page.cutFirst
      rw [upd_none _ _ _ hc]
      exact M
  | delete c i => exact M.delete c i
  | split c best => exact M.splitC c best h.1
  | reorg right picks key kflags cut =>
    rcases Page.reorg_marked mk cut P right (picks.map P.pick) (key, kflags) with h1 | h1
    · show (P.reorg mk cut right (picks.map P.pick) (key, kflags)).Marked
      rw [h1]; exact M
    · exact h1

theorem Page.Marked.fresh (leaf : Bool) : (Page.fresh leaf).Marked := by
  intro c k hk _ i it hit
  cases c with
  | zero =>
    simp [Page.fresh] at hk
    subst hk
    simp at hit
  | succ c => simp [Page.fresh] at hk

/-- Every operation keeps marks. -/
def RunMarks (mk : MkKey) : Page → List Op → Prop
  | _, [] => True
  | P, op :: ops => op.marks P ∧ RunMarks mk (P.step mk op) ops

theorem Page.Marked.run {mk : MkKey} {P : Page} {ops : List Op} (M : P.Marked) (h : RunOk mk P ops)
    (hm : RunMarks mk P ops) : (P.run mk ops).Marked := by
  induction ops generalizing P with
  | nil => exact M
  | cons op ops ih => exact ih (M.step h.1 hm.1) h.2 hm.2

end Verif.PageChunks
