import Verif.PageSplit.Waiters

/-! # Inserting for waiting processes never fails -/

namespace Verif.PageSplit

theorem Kept.sub {e : Env} {csn : Option Nat} {l l' : List Item} (h : Kept e csn l l') :
    (l'.map (·.row)).Sublist (l.map (·.row)) := by
  induction h with
  | nil => exact .slnil
  | keep hc _ ih =>
    rw [List.map_cons, List.map_cons, hc.row]
    exact ih.cons_cons _
  | drop _ _ ih => exact ih.cons _

theorem sorted_rows {l : List Item} : Sorted l ↔
    (l.map (·.row)).Pairwise (fun x y => x.tup.key < y.tup.key) := by
  unfold Sorted
  rw [List.pairwise_map]

theorem Sorted.sub {l l' : List Item} (h : (l'.map (·.row)).Sublist (l.map (·.row)))
    (hs : Sorted l) : Sorted l' :=
  sorted_rows.2 ((sorted_rows.1 hs).sublist h)

/-! ## Place of a key -/

theorem lower_le (k : Nat) (l : List Item) : lower k l ≤ l.length :=
  (List.takeWhile_sublist _).length_le

theorem lower_take (k : Nat) (l : List Item) :
    l.take (lower k l) = l.takeWhile (fun x => decide (x.row.tup.key < k)) := by
  unfold lower
  exact (List.prefix_iff_eq_take.1 (List.takeWhile_prefix _)).symm

theorem lower_lt (k : Nat) (l : List Item) : ∀ x ∈ l.take (lower k l), x.row.tup.key < k := by
  intro x hx
  rw [lower_take] at hx
  induction l with
  | nil => simp at hx
  | cons y l ih =>
    rw [List.takeWhile_cons] at hx
    split at hx
    · rename_i h
      rcases List.mem_cons.1 hx with rfl | hx
      · simpa using h
      · exact ih hx
    · simp at hx

theorem lower_drop {k : Nat} {l : List Item} {x : Item} (h : l[lower k l]? = some x) :
    k ≤ x.row.tup.key := by
  unfold lower at h
  induction l with
  | nil => simp at h
  | cons y l ih =>
    rw [List.takeWhile_cons] at h
    by_cases hy : y.row.tup.key < k
    · rw [if_pos (by simpa using hy), List.length_cons, List.getElem?_cons_succ] at h
      exact ih h
    · rw [if_neg (by simpa using hy), List.length_nil, List.getElem?_cons_zero] at h
      cases h
      omega

/-- A key that is not there goes to its place. -/
theorem lower_insert {l : List Item} (hs : Sorted l) (new : Item)
    (hn : (l[lower new.row.tup.key l]?.any (fun x => x.row.tup.key == new.row.tup.key)) = false) :
    Sorted (l.take (lower new.row.tup.key l) ++ new :: l.drop (lower new.row.tup.key l)) := by
  have hlt := lower_lt new.row.tup.key l
  have hdr := @lower_drop new.row.tup.key l
  generalize lower new.row.tup.key l = off at *
  have hs' : Sorted (l.take off ++ l.drop off) := by rw [List.take_append_drop]; exact hs
  obtain ⟨s1, s2, s3⟩ := sorted_append.1 hs'
  have hge : ∀ y ∈ l.drop off, new.row.tup.key < y.row.tup.key := by
    cases hd : l.drop off with
    | nil => simp
    | cons z zs =>
      have hz : l[off]? = some z := by
        rw [← List.head?_drop, hd]; rfl
      have h1 := hdr hz
      rw [hz, Option.any_some] at hn
      have h2 : z.row.tup.key ≠ new.row.tup.key := by simpa using hn
      rw [hd] at s2
      intro y hy
      rcases List.mem_cons.1 hy with rfl | hy
      · omega
      · have := (List.pairwise_cons.1 s2).1 y hy; omega
  refine sorted_append.2 ⟨s1, List.pairwise_cons.2 ⟨hge, s2⟩, ?_⟩
  intro a ha b hb
  rcases List.mem_cons.1 hb with rfl | hb
  · exact hlt a ha
  · exact s3 a ha b hb

/-! ## Sorting -/

theorem insertW_perm (y : Waiter) (l : List Waiter) : (insertW y l).Perm (y :: l) := by
  induction l with
  | nil => exact .refl _
  | cons z l ih =>
    unfold insertW
    split
    · exact .refl _
    · exact (ih.cons z).trans (.swap _ _ _)

theorem insertW_sorted (y : Waiter) (l : List Waiter)
    (h : l.Pairwise (fun x y => x.key ≤ y.key)) :
    (insertW y l).Pairwise (fun x y => x.key ≤ y.key) := by
  induction l with
  | nil => exact List.pairwise_singleton _ _
  | cons z l ih =>
    obtain ⟨h1, h2⟩ := List.pairwise_cons.1 h
    unfold insertW
    split
    · rename_i hle
      refine List.pairwise_cons.2 ⟨?_, h⟩
      intro x hx
      rcases List.mem_cons.1 hx with rfl | hx
      · exact hle
      · exact Nat.le_trans hle (h1 x hx)
    · rename_i hle
      refine List.pairwise_cons.2 ⟨?_, ih h2⟩
      intro x hx
      rcases List.mem_cons.1 ((insertW_perm y l).subset hx) with rfl | hx
      · omega
      · exact h1 x hx

theorem sortW_perm (l : List Waiter) : (sortW l).Perm l := by
  induction l with
  | nil => exact .refl _
  | cons y l ih => exact (insertW_perm _ _).trans (ih.cons y)

theorem sortW_sorted (l : List Waiter) : (sortW l).Pairwise (fun x y => x.key ≤ y.key) := by
  induction l with
  | nil => exact .nil
  | cons y l ih => exact insertW_sorted _ _ ih

theorem belowHi_prefix (hi : Option Tup) (ws : List Waiter) : belowHi hi ws <+: ws := by
  unfold belowHi
  cases hi with
  | none => exact List.prefix_refl _
  | some t => exact List.takeWhile_prefix _

theorem belowHi_lt {t : Tup} {hi : Option Tup} (h : hi = some t) (ws : List Waiter) :
    ∀ y ∈ belowHi hi ws, y.key < t.key := by
  subst h
  intro y hy
  unfold belowHi at hy
  dsimp only at hy
  induction ws with
  | nil => simp at hy
  | cons z ws ih =>
    rw [List.takeWhile_cons] at hy
    split at hy
    · rename_i h
      rcases List.mem_cons.1 hy with rfl | hy
      · simpa using h
      · exact ih hy
    · simp at hy

/-! ## The operation -/

theorem sizes_perm {a b : List Item} (h : a.Perm b) : sizes a = sizes b := by
  induction h with
  | nil => rfl
  | cons x _ ih => rw [sizes_cons, sizes_cons, ih]
  | swap x y l => simp only [sizes_cons]; omega
  | trans _ _ h1 h2 => rw [h1, h2]

/-- A tuple a process may wait with. -/
structure WOk (y : Waiter) : Prop where
  size : y.2.size = need true y.2.row.tup
  len : y.2.row.tup.len ≤ maxTup
  klen : y.2.row.tup.klen ≤ maxTup

theorem WOk.itemOk {y : Waiter} (h : WOk y) : ItemOk true y.2 := by
  have h1 := ma_dvd y.2.row.tup.len
  have h2 := le_of_ma h.len (by decide)
  have h3 := itemHdr_dvd true
  have h4 := h.size
  unfold need at h4
  exact ⟨by omega, by omega, fun _ => Nat.le_of_eq h.size.symm, by omega, h.klen⟩

/-- The new item is put where there is room. -/
theorem putFast_ok (o : Orc) {p : Page} (hp : p.Ok) (hl : p.leaf = true) {off : Nat} {new : Item}
    (hn : PutPre p off new false)
    (hfit : p.dataSize + (new.size + arr ((p.chunks.getD (chunkOf p.chunks off o.chunk false).1
      []).length + 1) - arr (p.chunks.getD (chunkOf p.chunks off o.chunk false).1 []).length) ≤
      blck) :
    (putAsIs o p (chunkOf p.chunks off o.chunk false).1 (chunkOf p.chunks off o.chunk false).2
      new false).Ok ∧
    (putAsIs o p (chunkOf p.chunks off o.chunk false).1 (chunkOf p.chunks off o.chunk false).2
      new false).leaf = true ∧
    (putAsIs o p (chunkOf p.chunks off o.chunk false).1 (chunkOf p.chunks off o.chunk false).2
      new false).hi = p.hi ∧
    ∃ n', n'.row = new.row ∧ new.size ≤ n'.size ∧
      (putAsIs o p (chunkOf p.chunks off o.chunk false).1 (chunkOf p.chunks off o.chunk false).2
        new false).items = p.items.take off ++ n' :: p.items.drop off := by
  obtain ⟨A, l, B, ha, _⟩ := chunkOf_at p.chunks off o.chunk false hp.chunks hn.le
  generalize chunkOf p.chunks off o.chunk false = ck at *
  rw [ha.getD] at hfit
  obtain ⟨h1, h2, h3, n', h4, h5, _, h6⟩ := putAsIs_ok false o (e := fun _ => none) (next := 0) hp hn
    (fun h => by cases h) ha (fun h => by cases h)
    (fitsItem_asIs _ _ _ _ _ _ _ _ _ (by
      unfold want
      rw [if_neg (by simp)]
      have := arr_mono (Nat.le_succ l.length)
      simp only [Nat.succ_eq_add_one] at this
      omega))
  exact ⟨h1, by rw [h3]; exact hl, h2, n', h4, h5, h6⟩

/-- What the fast path comes to. -/
theorem fastWaiters_ok (o : Orc) (ws : List Waiter) : ∀ (p : Page), p.Ok → p.leaf = true →
    Sorted p.items → (∀ y ∈ ws, WOk y) →
    ∃ ys rej : List Waiter, (ys ++ rej).Perm ws ∧ (fastWaiters o p ws).2 = ys.map (·.1) ∧
      (fastWaiters o p ws).1.Ok ∧ (fastWaiters o p ws).1.leaf = true ∧
      (fastWaiters o p ws).1.hi = p.hi ∧ Sorted (fastWaiters o p ws).1.items ∧
      ((fastWaiters o p ws).1.items.map (·.row)).Perm
        (p.items.map (·.row) ++ ys.map (·.2.row)) ∧
      (∀ x ∈ p.items, x ∈ (fastWaiters o p ws).1.items) ∧
      ∀ t, p.hi = some t → ∀ y ∈ ys, y.key < t.key := by
  induction ws with
  | nil =>
    intro p hp hl hs _
    exact ⟨[], [], .refl _, rfl, hp, hl, rfl, hs, by simp [fastWaiters],
      fun x hx => hx, fun _ _ y hy => (by simp at hy)⟩
  | cons y ws ih =>
    intro p hp hl hs hw
    have hy := hw y (by simp)
    have hws : ∀ y ∈ ws, WOk y := fun z hz => hw z (by simp [hz])
    have hskip : ∃ ys rej : List Waiter, (ys ++ rej).Perm (y :: ws) ∧ (fastWaiters o p ws).2 = ys.map (·.1) ∧
      (fastWaiters o p ws).1.Ok ∧ (fastWaiters o p ws).1.leaf = true ∧
      (fastWaiters o p ws).1.hi = p.hi ∧ Sorted (fastWaiters o p ws).1.items ∧
      ((fastWaiters o p ws).1.items.map (·.row)).Perm
        (p.items.map (·.row) ++ ys.map (·.2.row)) ∧
      (∀ x ∈ p.items, x ∈ (fastWaiters o p ws).1.items) ∧
      ∀ t, p.hi = some t → ∀ y ∈ ys, y.key < t.key := by
      obtain ⟨ys, rej, h1, h2⟩ := ih p hp hl hs hws
      exact ⟨ys, y :: rej, List.perm_middle.trans (h1.cons y), h2⟩
    unfold fastWaiters
    split
    · exact hskip
    · rename_i hhi
      dsimp only
      split
      · exact ⟨[], y :: ws, .refl _, rfl, hp, hl, rfl, hs, by simp,
          fun x hx => hx, fun _ _ y hy => (by simp at hy)⟩
      · rename_i hfit
        split
        · exact hskip
        · rename_i hdup
          have hlow := lower_le y.key p.items
          have hpre : PutPre p (lower y.key p.items) y.2 false :=
            ⟨(by rw [hl]; exact hy.size), hy.len, hy.klen, hlow, (fun h => by cases h),
              (fun h => by rw [hl] at h; cases h), (fun h => by rw [hl] at h; cases h)⟩
          obtain ⟨g1, g2, g3, n', g4, g5, g6⟩ := putFast_ok { o with split := none } hp hl hpre
            (by dsimp only; omega)
          have hsn : Sorted (p.items.take (lower y.key p.items) ++ n' ::
              p.items.drop (lower y.key p.items)) := by
            have := lower_insert hs y.2 (Bool.eq_false_iff.2 hdup)
            refine Sorted.sub ?_ this
            simp [g4, Waiter.key]
          dsimp only at g1 g2 g3 g6
          obtain ⟨ys, rej, h1, h2, h3, h4, h5, h6, h7, h8, h9⟩ := ih _ g1 g2 (by rw [g6]; exact hsn)
            hws
          refine ⟨y :: ys, rej, h1.cons y, ?_, h3, h4, by rw [h5, g3], h6, ?_, ?_, ?_⟩
          · rw [h2]; rfl
          · refine h7.trans ?_
            rw [g6]
            have e1 : p.items.map (·.row) = (p.items.take (lower y.key p.items)).map (·.row) ++
                (p.items.drop (lower y.key p.items)).map (·.row) := by
              rw [← List.map_append, List.take_append_drop]
            rw [e1]
            simp only [List.map_append, List.map_cons, g4, List.append_assoc, List.cons_append]
            refine List.Perm.append_left _ ?_
            exact List.perm_middle.symm
          · intro x hx
            apply h8
            rw [g6]
            have hx' : x ∈ p.items.take (lower y.key p.items) ++
                p.items.drop (lower y.key p.items) := by rw [List.take_append_drop]; exact hx
            simp only [List.mem_append, List.mem_cons] at hx' ⊢
            rcases hx' with h | h
            · exact .inl h
            · exact .inr (.inr h)
          · intro t ht z hz
            rcases List.mem_cons.1 hz with rfl | hz
            · rw [ht, Option.any_some] at hhi
              simpa using hhi
            · exact h9 t (by rw [g3]; exact ht) z hz

/-- The pages in place of `p` after the item and those of waiters were put. -/
structure WaitOut (p : Page) (e2 : Env) (csn : Option Nat) (new : Item) (ws : List Waiter)
    (qs : List Page) (ids : List Nat) : Prop where
  ok : ∀ q ∈ qs, q.Ok ∧ q.leaf = true
  div : Divided p.hi qs
  sorted : Sorted (qs.map Page.items).flatten
  rows : ∃ (K : List Item) (ys rej : List Waiter), Kept e2 csn p.items K ∧ (ys ++ rej).Perm ws ∧ ids = ys.map (·.1) ∧
    (((qs.map Page.items).flatten).map (·.row)).Perm
      (new.row :: (K.map (·.row) ++ ys.map (·.2.row))) ∧
    (∀ x ∈ K, x ∈ (qs.map Page.items).flatten) ∧
    ∀ t, p.hi = some t → ∀ y ∈ ys, y.key < t.key

theorem putWaiters_ok (o : Orc) (half : Int → Int → Bool) {p : Page} {e2 : Env}
    {csn : Option Nat} {off : Nat} {new : Item} {ws : List Waiter} (hp : p.Ok)
    (hl : p.leaf = true) (hn : PutPre p off new false) (hs : Sorted (p.items.take off ++ new ::
      p.items.drop off)) (hw : ∀ y ∈ ws, WOk y) :
    ∃ qs ids, putWaiters o half p e2 csn off new ws = (.ok qs, ids) ∧
      WaitOut p e2 csn new ws qs ids := by
  unfold putWaiters
  split
  · rename_i hfast
    obtain ⟨g1, g2, g3, n', g4, g5, g6⟩ := putFast_ok { o with split := none } hp hl hn (by
      dsimp only
      have := arr_succ (p.chunks.getD (chunkOf p.chunks off o.chunk false).1 []).length
      omega)
    dsimp only at g1 g2 g3 g6 ⊢
    have hsn : Sorted (p.items.take off ++ n' :: p.items.drop off) := by
      refine Sorted.sub ?_ hs
      simp [g4]
    obtain ⟨ys, rej, h1, h2, h3, h4, h5, h6, h7, h8, h9⟩ := fastWaiters_ok o ws _ g1 g2
      (by rw [g6]; exact hsn) hw
    refine ⟨_, _, rfl, ?_, ?_, ?_, ?_⟩
    · intro q hq; rw [List.mem_singleton.1 hq]; exact ⟨h3, h4⟩
    · show _ = _; rw [h5, g3]
    · simpa using h6
    · refine ⟨p.items, ys, rej, Kept.refl _ _ _, h1, h2, ?_, ?_, ?_⟩
      · simp only [List.map_cons, List.map_nil, List.flatten_cons, List.flatten_nil,
          List.append_nil]
        refine h7.trans ?_
        rw [g6]
        have e1 : p.items.map (·.row) = (p.items.take off).map (·.row) ++
            (p.items.drop off).map (·.row) := by
          rw [← List.map_append, List.take_append_drop]
        rw [e1]
        simp only [List.map_append, List.map_cons, g4, List.append_assoc, List.cons_append]
        exact List.perm_middle
      · intro x hx
        simp only [List.map_cons, List.map_nil, List.flatten_cons, List.flatten_nil,
          List.append_nil]
        apply h8
        rw [g6]
        have hx' : x ∈ p.items.take off ++ p.items.drop off := by
          rw [List.take_append_drop]; exact hx
        simp only [List.mem_append, List.mem_cons] at hx' ⊢
        rcases hx' with h | h
        · exact .inl h
        · exact .inr (.inr h)
      · intro t ht
        exact h9 t (by rw [g3]; exact ht)
  · have hitems : (makeSplitItems p false e2 csn new off).items =
        keep true e2 csn (p.items.take off) ++ new :: keep true e2 csn (p.items.drop off) := by
      have := makeLoop_eq p.leaf false e2 csn new p.items 0 off hn.le (fun h => by cases h)
      rw [Nat.zero_add, hl] at this
      unfold makeSplitItems
      dsimp only
      rw [hl]
      exact this
    have hio : ∀ x ∈ p.items, ItemOk true x := by rw [← hl]; exact hp.items
    have hta := keep_le true e2 csn (p.items.take off) (fun x hx => hio x (List.mem_of_mem_take hx))
    have htb := keep_le true e2 csn (p.items.drop off) (fun x hx => hio x (List.mem_of_mem_drop hx))
    have hnew := hn.itemOk
    rw [hl] at hnew
    have hok : ∀ x ∈ (makeSplitItems p false e2 csn new off).items, ItemOk true x := by
      rw [hitems]
      intro x hx
      simp only [List.mem_append, List.mem_cons] at hx
      rcases hx with hx | rfl | hx
      · exact hta.1 x hx
      · exact hnew
      · exact htb.1 x hx
    have hsi : Sorted (makeSplitItems p false e2 csn new off).items := by
      rw [hitems]
      refine Sorted.sub ?_ hs
      rw [List.map_append, List.map_append, List.map_cons, List.map_cons]
      exact ((keep_kept e2 csn _).sub).append (((keep_kept e2 csn _).sub).cons_cons _)
    have hsw : (belowHi p.hi (sortW ws)).Pairwise (fun x y => x.key ≤ y.key) :=
      (sortW_sorted ws).sublist (belowHi_prefix _ _).sublist
    obtain ⟨ys, acc, hd, hids, hsp, hcs⟩ := mergeWaited_spec
      (makeSplitItems p false e2 csn new off) half _ hsi hsw
    obtain ⟨rej, hrej⟩ := hd.all
    obtain ⟨rest, hrest⟩ := belowHi_prefix p.hi (sortW ws)
    have hall : (ys ++ (rej ++ rest)).Perm ws := by
      rw [← List.append_assoc]
      refine (hrej.append_right rest).trans ?_
      rw [hrest]
      exact sortW_perm ws
    have hbw : ∀ y ∈ belowHi p.hi (sortW ws), WOk y := fun y hy =>
      hw y ((sortW_perm ws).subset ((belowHi_prefix _ _).subset hy))
    have hyb : ∀ y ∈ ys, y ∈ belowHi p.hi (sortW ws) := fun y hy => hrej.subset (by simp [hy])
    dsimp only
    generalize hm : mergeWaited (makeSplitItems p false e2 csn new off) half
      (belowHi p.hi (sortW ws)) = m at *
    obtain ⟨s, ids, sp⟩ := m
    dsimp only at hd hids hsp hcs ⊢
    have hsok : ∀ x ∈ s.items, ItemOk p.leaf x := by
      intro x hx
      rw [hl]
      have := hd.perm.subset hx
      rcases List.mem_append.1 this with h | h
      · exact hok x h
      · obtain ⟨y, hy, rfl⟩ := List.mem_map.1 h
        exact (hbw y (hyb y hy)).itemOk
    have hin : InnerOk p.leaf s.items := fun h => by rw [hl] at h; cases h
    have hrows : ∀ qs : List Page, (qs.map Page.items).flatten = s.items →
        ∃ (K : List Item) (ys rej : List Waiter), Kept e2 csn p.items K ∧ (ys ++ rej).Perm ws ∧ ids = ys.map (·.1) ∧
        (((qs.map Page.items).flatten).map (·.row)).Perm
          (new.row :: (K.map (·.row) ++ ys.map (·.2.row))) ∧
        (∀ x ∈ K, x ∈ (qs.map Page.items).flatten) ∧
        ∀ t, p.hi = some t → ∀ y ∈ ys, y.key < t.key := by
      intro qs hq
      refine ⟨keep true e2 csn p.items, ys, rej ++ rest, keep_kept _ _ _, hall, hids, ?_, ?_, ?_⟩
      · rw [hq]
        have h1 := hd.perm.map (·.row)
        refine h1.trans ?_
        rw [hitems]
        have e1 : keep true e2 csn p.items = keep true e2 csn (p.items.take off) ++
            keep true e2 csn (p.items.drop off) := by
          rw [← keep_append, List.take_append_drop]
        rw [e1]
        simp only [List.map_append, List.map_cons, List.append_assoc, List.cons_append,
          List.map_map]
        exact List.perm_middle
      · intro x hx
        rw [hq]
        refine hd.perm.symm.subset ?_
        rw [hitems]
        have e1 : keep true e2 csn p.items = keep true e2 csn (p.items.take off) ++
            keep true e2 csn (p.items.drop off) := by
          rw [← keep_append, List.take_append_drop]
        rw [e1] at hx
        simp only [List.mem_append, List.mem_cons] at hx ⊢
        rcases hx with h | h
        · exact .inl (.inl h)
        · exact .inl (.inr (.inr h))
      · intro t ht y hy
        exact belowHi_lt ht _ y (hyb y hy)
    have hst := hp.start
    have hleaf : s.leaf = p.leaf := hd.leaf
    have hhik : s.hikeySize = p.hikeySize := hd.hik
    have hroom := hp.room
    have hsingle := p.single_le
    have hlen : (p.items.take off).length + (p.items.drop off).length = p.items.length := by
      rw [← List.length_append, List.take_append_drop]
    have hinp1 : sizes (makeSplitItems p false e2 csn new off).items ≤ sizes p.items + new.size := by
      have := sizes_take_drop p.items off
      rw [hitems, sizes_append, sizes_cons]; omega
    have hinp2 : (makeSplitItems p false e2 csn new off).items.length ≤ p.items.length + 1 := by
      rw [hitems, List.length_append, List.length_cons]; omega
    have hhk : p.hikeySize ≤ maxTup := hiSize_le hp.hikey
    have hmaxin : (makeSplitItems p false e2 csn new off).maxKeyLen ≤ maxTup := by
      have := le_of_ma hp.maxKey (by decide)
      have := hn.klen
      show max (ma p.maxKey) new.row.tup.klen ≤ maxTup
      omega
    have hmax : s.maxKeyLen ≤ maxTup := hd.keyle hmaxin (fun y hy => (hbw y hy).klen)
    have hstart : max (hikeysEnd (makeSplitItems p false e2 csn new off).leaf)
        (hdrSize + (makeSplitItems p false e2 csn new off).hikeySize) = p.start := hst.symm
    have he := hikeysEnd_le p.leaf
    cases sp with
    | false =>
      rw [if_neg (by simp)]
      have hnf : ¬ (sizes s.items + arr s.items.length > blck - p.start) := by
        intro h
        rw [hstart] at hsp
        have := hsp.2 h
        cases this
      obtain ⟨q, h1, h2, h3, h4, h5⟩ := compact_ok o hp hsok hin (by
        have : p.start ≤ blck := by
          rw [hst]; unfold hdrSize blck maxTup at *; omega
        omega)
      have hq : ([q].map Page.items).flatten = s.items := by simpa using h3
      refine ⟨[q], ids, by rw [h1], ?_, h4, ?_, hrows _ hq⟩
      · intro q' hq'; rw [List.mem_singleton.1 hq']; exact ⟨h2, by rw [h5]; exact hl⟩
      · rw [hq]; exact hd.sorted
    | true =>
      rw [if_pos rfl]
      have hbig := hsp.1 rfl
      rw [hstart] at hbig
      have hex : ∃ k, ValidSplit s k := by
        rcases hcs with h | h | h
        · -- the items without waiters
          have hpm := hd.perm
          rw [h, List.map_nil, List.append_nil] at hpm
          have hlens := hpm.length_eq
          have hszs : sizes s.items = sizes (makeSplitItems p false e2 csn new off).items := by
            exact sizes_perm hpm
          have hnl := hnew.le
          have hst' : p.start = max (hikeysEnd s.leaf) (hdrSize + s.hikeySize) := by
            rw [hleaf, hhik]; exact hst
          refine split_exists s (fun x hx => (hsok x hx).le) hmax (by rw [hhik]; exact hhk) ?_ ?_
          · by_cases h2 : 2 ≤ s.items.length
            · exact h2
            · exfalso
              have h3 : sizes s.items ≤ 2704 := by
                match hsl : s.items with
                | [] => exact Nat.zero_le _
                | [x] =>
                  have := (hsok x (by rw [hsl]; simp)).le
                  have h4 : sizes [x] = x.size := Nat.add_zero _
                  omega
                | x :: y :: l => rw [hsl] at h2; simp at h2
              have h4 : arr s.items.length ≤ 8 := by
                have := arr_mono (show s.items.length ≤ 1 by omega)
                rw [arr_one] at this; exact this
              unfold hdrSize blck maxTup at *
              omega
          · rw [← hst']
            have h6 := arr_mono (show s.items.length - 1 ≤ p.items.length by omega)
            omega
        · cases h
        · have hf := findLocation_spec s (fun x hx => (hsok x hx).pos) 0 half
          unfold canSucceed at h
          cases hloc : findLocation s 0 half with
          | none => rw [hloc] at h; simp at h
          | some k => rw [hloc] at hf; exact ⟨k, hf⟩
      have hkl : ∀ x ∈ s.items.tail, x.row.tup.klen ≤ s.maxKeyLen := by
        intro x hx
        have hx' := hd.perm.subset (List.mem_of_mem_tail hx)
        rcases List.mem_append.1 hx' with h | h
        · refine Nat.le_trans ?_ hd.key
          have hkeys := hp.keys
          unfold keyed at hkeys
          rw [hl, if_pos rfl] at hkeys
          rw [hitems] at h
          have hold : (∃ y ∈ p.items, y.row = x.row) →
              x.row.tup.klen ≤ (makeSplitItems p false e2 csn new off).maxKeyLen := by
            rintro ⟨y, hy, hyx⟩
            have h1 := hkeys y hy
            rw [hyx] at h1
            have h2 := ma_le x.row.tup.klen
            exact Nat.le_trans (Nat.le_trans h2 h1) (Nat.le_max_left _ _)
          simp only [List.mem_append, List.mem_cons] at h
          rcases h with h | rfl | h
          · obtain ⟨y, hy, h⟩ := keep_mem_klen _ _ _ _ x h
            exact hold ⟨y, List.mem_of_mem_take hy, h⟩
          · exact Nat.le_max_right _ _
          · obtain ⟨y, hy, h⟩ := keep_mem_klen _ _ _ _ x h
            exact hold ⟨y, List.mem_of_mem_drop hy, h⟩
        · obtain ⟨y, hy, rfl⟩ := List.mem_map.1 h
          exact Nat.le_trans (ma_le _) (hd.keys y hy)
      obtain ⟨lp, rp, h1, h2, h3, h4, h5, h6, h7, h8⟩ := doSplit_ok o hp hsok hin hleaf hhik hkl hex
      have hq : ([lp, rp].map Page.items).flatten = s.items := by
        rw [← h7 hl]; simp
      refine ⟨[lp, rp], ids, by rw [h1], ?_, h6, ?_, hrows _ hq⟩
      · intro q hq
        simp only [List.mem_cons, List.not_mem_nil, or_false] at hq
        rcases hq with rfl | rfl
        · exact ⟨h2, by rw [h4]; exact hl⟩
        · exact ⟨h3, by rw [h5]; exact hl⟩
      · rw [hq]; exact hd.sorted

end Verif.PageSplit
