import Verif.PageChunks.PlaceChunks

/-! # Bytes of B-tree pages: contents after a reorganization -/

namespace Verif.PageChunks

/-! ## Where items are -/

/-- Items of a chunk with their addresses. -/
def iplaces : Nat → List Item → List (Nat × Item)
  | _, [] => []
  | p, x :: l => (p, x) :: iplaces (p + x.words.length) l

/-- Items of chunks with their addresses. -/
def places : Nat → List Chunk → List (Nat × Item)
  | _, [] => []
  | a, c :: P => iplaces (a + al c.items.length) c.items ++ places (a + csize c) P

theorem iplaces_mid (p : Nat) (l : List Item) (it : Item) (r : List Item) :
    (iplaces p (l ++ it :: r))[l.length]? = some (p + ilen l, it) := by
  induction l generalizing p with
  | nil => rfl
  | cons x l ih =>
    rw [List.cons_append, iplaces, List.length_cons, List.getElem?_cons_succ, ih, ilen_cons, Nat.add_assoc]

theorem iplaces_length (p : Nat) (l : List Item) : (iplaces p l).length = l.length := by
  induction l generalizing p with
  | nil => rfl
  | cons x l ih => rw [iplaces, List.length_cons, ih, List.length_cons]

theorem iplaces_items (p : Nat) (l : List Item) : (iplaces p l).map (·.2) = l := by
  induction l generalizing p with
  | nil => rfl
  | cons x l ih => rw [iplaces, List.map_cons, ih]

theorem places_items (a : Nat) (P : List Chunk) : (places a P).map (·.2) = P.flatMap (·.items) := by
  induction P generalizing a with
  | nil => rfl
  | cons c P ih => rw [places, List.map_append, ih, iplaces_items, List.flatMap_cons]

theorem iplaces_bounds {p : Nat} {l : List Item} {q : Nat × Item} (h : q ∈ iplaces p l) :
    p ≤ q.1 ∧ q.1 + q.2.words.length ≤ p + ilen l := by
  induction l generalizing p with
  | nil => simp [iplaces] at h
  | cons x l ih =>
    rw [ilen_cons]
    rcases List.mem_cons.mp h with rfl | h
    · exact ⟨Nat.le_refl _, by simp only; omega⟩
    · have := ih h
      omega

theorem places_bounds {a : Nat} {P : List Chunk} {q : Nat × Item} (h : q ∈ places a P) :
    a ≤ q.1 ∧ q.1 + q.2.words.length ≤ a + dsize P := by
  induction P generalizing a with
  | nil => simp [places] at h
  | cons c P ih =>
    rw [dsize_cons]
    rw [places, List.mem_append] at h
    rcases h with h | h
    · have := iplaces_bounds h
      rw [csize_eq]
      omega
    · have := ih h
      omega

theorem iplaces_pairwise (p : Nat) (l : List Item) :
    (iplaces p l).Pairwise fun x y => x.1 + x.2.words.length ≤ y.1 := by
  induction l generalizing p with
  | nil => exact List.Pairwise.nil
  | cons x l ih => exact List.Pairwise.cons (fun y hy => (iplaces_bounds hy).1) (ih _)

theorem places_pairwise (a : Nat) (P : List Chunk) :
    (places a P).Pairwise fun x y => x.1 + x.2.words.length ≤ y.1 := by
  induction P generalizing a with
  | nil => exact List.Pairwise.nil
  | cons c P ih =>
    rw [places, List.pairwise_append]
    refine ⟨iplaces_pairwise _ _, ih _, fun x hx y hy => ?_⟩
    have h1 := iplaces_bounds hx
    have h2 := places_bounds hy
    rw [csize_eq] at h2
    omega

theorem iplaces_at {m : Nat → Nat} {p : Nat} {l : List Item} (h : At m p (idata l)) {q : Nat × Item}
    (hq : q ∈ iplaces p l) : At m q.1 q.2.words := by
  induction l generalizing p with
  | nil => simp [iplaces] at hq
  | cons x l ih =>
    rw [idata_cons, At.append] at h
    rcases List.mem_cons.mp hq with rfl | hq
    · exact h.1
    · exact ih h.2 hq

theorem places_at {m : Nat → Nat} {a : Nat} {P : List Chunk} (h : ChunksAt m a P) {q : Nat × Item}
    (hq : q ∈ places a P) : At m q.1 q.2.words := by
  induction P generalizing a with
  | nil => simp [places] at hq
  | cons c P ih =>
    rw [places, List.mem_append] at hq
    rcases hq with hq | hq
    · exact iplaces_at h.1.2 hq
    · exact ih h.2 hq

theorem Rep.chunkPlaces {s P c xs k ys} (R : Rep s P) (h : ChunkSplit P c xs k ys) :
    ((List.range (s.fill xs.length).count).map fun i =>
      (s.item { s.fill xs.length with item := i }, s.itemAt { s.fill xs.length with item := i })) =
      iplaces (P.start + dsize xs + al k.items.length) k.items := by
  have f := R.facts h
  have hn : (s.fill xs.length).count = k.items.length := by rw [f.fill]
  apply List.ext_getElem?
  intro i
  rw [List.getElem?_map]
  by_cases hi : i < k.items.length
  · obtain ⟨a, b, hab, hl⟩ := list_split (List.getElem?_eq_getElem hi)
    have h1 := R.itemAt h hab
    have h2 := (R.item h hab).addr
    have h3 := iplaces_mid (P.start + dsize xs + al k.items.length) a k.items[i] b
    rw [← hab] at h3
    rw [hl] at h1 h2 h3
    rw [hn, List.getElem?_range hi, h3]
    simp only [Option.map_some, h1, h2]
  · rw [List.getElem?_eq_none (l := iplaces _ _) (by rw [iplaces_length]; omega),
      List.getElem?_eq_none (by rw [List.length_range]; omega)]
    rfl

theorem Rep.places {s P} (R : Rep s P) :
    (s.locs.map fun l => (s.item l, s.itemAt l)) = places P.start P.chunks := by
  have key : ∀ ys xs, P.chunks = xs ++ ys →
      ((List.range' xs.length ys.length).flatMap fun c => (List.range (s.fill c).count).map fun i =>
        (s.item { s.fill c with item := i }, s.itemAt { s.fill c with item := i })) =
      PageChunks.places (P.start + dsize xs) ys := by
    intro ys
    induction ys with
    | nil => intro xs _; rfl
    | cons k ys ih =>
      intro xs h
      rw [List.length_cons, List.range'_succ, List.flatMap_cons, R.chunkPlaces ⟨h, rfl⟩, PageChunks.places]
      have h2 := ih (xs ++ [k]) (by rw [h]; simp)
      rw [List.length_append, List.length_singleton, dsize_append] at h2
      rw [h2]
      have : dsize [k] = csize k := by simp [dsize]
      rw [this, ← Nat.add_assoc]
  have := key P.chunks [] rfl
  unfold Pg.locs
  rw [R.count, List.map_flatMap, List.range_eq_range']
  simp only [List.map_map]
  have z : dsize ([] : List Chunk) = 0 := rfl
  rw [z, Nat.add_zero] at this
  exact this

/-! ## Sources -/

theorem Rep.pickOld {s P k n} {it : Item} (R : Rep s P) (h : P.items[k]? = Option.some it) (hn : n ≤ it.words.length) :
    ∃ a, (PageChunks.places P.start P.chunks)[k]? = Option.some (a, it) ∧ s.pick (.old k n) = .own a n it.flag ∧
      Src.item s (s.pick (.old k n)) = P.pick (.old k n) := by
  have h1 := R.places
  unfold Page.items at h
  rw [← places_items P.start, List.getElem?_map, ← h1, List.getElem?_map] at h
  cases hl : s.locs[k]? with
  | none => rw [hl] at h; simp at h
  | some l =>
    rw [hl] at h
    simp only [Option.map_some, Option.some.injEq] at h
    have hp : (PageChunks.places P.start P.chunks)[k]? = Option.some (s.item l, it) := by
      rw [← h1, List.getElem?_map, hl, Option.map_some, h]
    refine ⟨s.item l, hp, ?_, ?_⟩
    · unfold Pg.pick
      simp only
      rw [hl]
      simp only
      rw [h]
    · have hi : P.items[k]? = Option.some it := by
        unfold Page.items
        rw [← places_items P.start, List.getElem?_map, hp]
        rfl
      unfold Pg.pick Page.pick Src.item
      simp only
      rw [hl, hi]
      simp only
      rw [h]
      simp only [Src.flag, Src.words]
      congr 1
      have hat := places_at R.chunks (List.mem_of_getElem? hp)
      simp only at hat
      refine Pg.read_at (fun i v hv => hat i v ?_) ?_
      · rw [List.getElem?_take] at hv
        split at hv
        · exact hv
        · simp at hv
      · rw [List.length_take]
        omega

theorem Rep.picks {s P} (R : Rep s P) (picks : List Pick) : ∀ (k lo : Nat), PicksOk P k picks →
    (∀ k' q, k ≤ k' → (PageChunks.places P.start P.chunks)[k']? = Option.some q → lo ≤ q.1) →
    Sorted lo (picks.map s.pick) ∧ (picks.map s.pick).map (Src.item s) = picks.map P.pick ∧
      ∀ it ∈ picks.map P.pick, it.ok := by
  induction picks with
  | nil => intro k lo _ _; exact ⟨trivial, rfl, by simp⟩
  | cons p picks ih =>
    intro k lo h hlo
    cases p with
    | old k' n =>
      obtain ⟨h1, h2, h3, ⟨it, h4, h5⟩, h6⟩ := h
      obtain ⟨a, ha, hp, hi⟩ := R.pickOld h4 h5
      have hb := places_bounds (List.mem_of_getElem? ha)
      have hfit := R.fit
      simp only at hb
      have hnext := ih (k' + 1) (a + n) h6 (by
        intro k2 q hk2 hq
        have := List.pairwise_iff_getElem.mp (places_pairwise P.start P.chunks)
        obtain ⟨g1, g2⟩ := List.getElem?_eq_some_iff.mp ha
        obtain ⟨g3, g4⟩ := List.getElem?_eq_some_iff.mp hq
        have := this k' k2 g1 g3 (by omega)
        rw [g2, g4] at this
        simp only at this
        omega)
      refine ⟨?_, ?_, ?_⟩
      · rw [List.map_cons, hp]
        exact ⟨hlo k' _ h1 ha, by omega, hnext.1⟩
      · rw [List.map_cons, List.map_cons, List.map_cons, hi, hnext.2.1]
      · intro x hx
        rw [List.map_cons] at hx
        rcases List.mem_cons.mp hx with rfl | hx
        · unfold Page.pick
          simp only
          rw [h4]
          simp only [Item.ok, List.length_take]
          omega
        · exact hnext.2.2 x hx
    | new it =>
      have hnext := ih k lo h.2 hlo
      refine ⟨hnext.1, ?_, ?_⟩
      · rw [List.map_cons, List.map_cons, List.map_cons, hnext.2.1]
        rfl
      · intro x hx
        rw [List.map_cons] at hx
        rcases List.mem_cons.mp hx with rfl | hx
        · exact h.1
        · exact hnext.2.2 x hx

/-! ## The new chunks -/

theorem mkChunks_length (mk : MkKey) (leaf : Bool) (hk : List Nat × Nat) (first : Bool) (cs : List (List Item)) :
    (mkChunks mk leaf hk first cs).length = cs.length := by
  induction cs generalizing first with
  | nil => rfl
  | cons l cs ih =>
    cases cs with
    | nil => rfl
    | cons m r => rw [mkChunks, List.length_cons, ih, List.length_cons, List.length_cons, List.length_cons]

theorem mkChunks_items (mk : MkKey) (leaf : Bool) (hk : List Nat × Nat) (first : Bool) (cs : List (List Item)) :
    (mkChunks mk leaf hk first cs).map (·.items) = cs := by
  induction cs generalizing first with
  | nil => rfl
  | cons l cs ih =>
    cases cs with
    | nil => rfl
    | cons m r => rw [mkChunks, List.map_cons, ih]

theorem mkChunks_ksize (mk : MkKey) (leaf : Bool) (hk : List Nat × Nat) (first : Bool) (l : List Item)
    (cs : List (List Item)) (h : ∀ c ∈ cs, c ≠ []) :
    ksize (mkChunks mk leaf hk first (l :: cs)).dropLast =
      (tailKeys (fun it => (mk it.words it.flag).1.length) (l :: cs)).sum ∧
    lastKey (mkChunks mk leaf hk first (l :: cs)) = hk.1 := by
  induction cs generalizing first l with
  | nil => exact ⟨rfl, rfl⟩
  | cons m r ih =>
    have h2 := ih false m fun c hc => h c (by simp [hc])
    obtain ⟨x, m', rfl⟩ : ∃ x m', m = x :: m' := by
      cases m with
      | nil => exact absurd rfl (h [] (by simp))
      | cons x m' => exact ⟨x, m', rfl⟩
    rw [mkChunks]
    have hne := mkChunks_ne mk leaf hk false (x :: m') r
    refine ⟨?_, ?_⟩
    · rw [List.dropLast_cons_of_ne_nil hne, ksize_cons, h2.1]
      simp [tailKeys]
    · rw [← h2.2]
      unfold lastKey
      rw [List.getLast?_cons_of_ne_nil hne]

theorem mkChunks_last (mk : MkKey) (leaf : Bool) (hk : List Nat × Nat) (first : Bool) (cs : List (List Item))
    (h : cs ≠ []) : (mkChunks mk leaf hk first cs).getLast?.map (·.kflags) = some hk.2 := by
  induction cs generalizing first with
  | nil => exact absurd rfl h
  | cons l cs ih =>
    cases cs with
    | nil => rfl
    | cons m r =>
      have hne : mkChunks mk leaf hk false (m :: r) ≠ [] := by
        cases r <;> simp [mkChunks]
      rw [mkChunks, List.getLast?_cons_of_ne_nil hne, ih _ (by simp)]

theorem mkChunks_aligned {mk : MkKey} (hm : MkOk mk) (leaf : Bool) {hk : List Nat × Nat} (hk4 : hk.1.length % 4 = 0)
    (hk2 : hk.2 < 4) (first : Bool) {cs : List (List Item)} (h : ∀ it ∈ cs.flatten, it.ok) :
    Aligned (mkChunks mk leaf hk first cs) := by
  induction cs generalizing first with
  | nil => intro c hc; simp [mkChunks] at hc
  | cons l cs ih =>
    have hl : ∀ it ∈ l, it.ok := fun it hi => h it (by simp [hi])
    have ht : ∀ it ∈ cs.flatten, it.ok := fun it hi => h it (by
      rw [List.flatten_cons]; simp only [List.mem_append]; exact Or.inr hi)
    cases cs with
    | nil =>
      rw [mkChunks, Aligned.cons]
      exact ⟨⟨hl, hk4, hk2⟩, fun c hc => by simp at hc⟩
    | cons m r =>
      rw [mkChunks, Aligned.cons]
      exact ⟨⟨hl, (hm _ _).1, (hm _ _).2⟩, ih false ht⟩

theorem dsize_of_items {P : List Chunk} {cs : List (List Item)} (h : P.map (·.items) = cs) :
    dsize P = (cs.map fun c => al c.length + ilen c).sum ∧ icount P = cs.flatten.length := by
  subst h
  induction P with
  | nil => exact ⟨rfl, rfl⟩
  | cons c P ih =>
    rw [dsize_cons, icount_cons, List.map_cons, List.map_cons, List.sum_cons, List.flatten_cons, List.length_append,
      ih.1, ih.2]
    exact ⟨rfl, rfl⟩

theorem clen_eq (s : Pg) (cs : List (List Src)) :
    clen cs = ((cs.map (·.map (Src.item s))).map fun c => al c.length + ilen c).sum := by
  induction cs with
  | nil => rfl
  | cons c cs ih =>
    rw [clen_cons, ih, List.map_cons, List.map_cons, List.sum_cons, slen_eq, List.length_map]

/-! ## Reorganization -/

/-- `Pg.reorg` when the items fit. -/
theorem Pg.reorg_eq (mk : MkKey) (cut : Nat → Bool) (s : Pg) (right : Bool) (its : List Src)
    (hikey : List Nat × Nat) (hk : List Nat × Nat) (hhk : hk = if right then ([], 0) else hikey)
    {e : Nat} (he : e = dataStart s.leaf hk.1) {cs : List (List Src)}
    (hcs : cs = cutChunks (fun x => (mk (x.words s) x.flag).1.length) Src.size cut s.leaf right hk.1 its)
    (hfit : ¬ blck < e + (its.map Src.size).sum + al its.length)
    {s1 s2 : Pg} {p : Nat} {r : Pg × Nat × Bool}
    (hs1 : s1 = { s with
        rightmost := right
        dataSize := e + clen cs
        chunksCount := cs.length
        bad := s.bad || decide (maxChunks < cs.length ∨ maxChunkItems < its.length) })
    (hs2 : cs.foldr backChunk (s1, e + clen cs) = (s2, p))
    (hr : r = placeChunks mk s2.leaf cs 0 0 e (hdrLen cs.length) true s2)
    (hb : descOff ≤ r.2.1 ∧ r.2.1 ≤ blck) :
    s.reorg mk cut right its hikey =
      { (Pg.fin hk cs.length r) with
        hikeysEnd := r.2.1 + hk.1.length
        itemsCount := its.length
        hikeysFixed := r.2.2 && (right || decide (hikey.2 % 2 = 1)) } := by
  have e1 : (if right = true then [] else hikey.1) = hk.1 := by rw [hhk]; cases right <;> rfl
  have e2 : (if right = true then 0 else hikey.2) = hk.2 := by rw [hhk]; cases right <;> rfl
  unfold Pg.reorg
  simp only
  rw [e1, e2, ← he, if_neg hfit, ← hcs]
  have e3 : (cs.map fun c => al c.length + (c.map Src.size).sum).sum = clen cs := rfl
  rw [e3, ← hs1, hs2]
  simp only
  rw [← hr]
  unfold Pg.fin
  simp only
  cases right with
  | false => rfl
  | true =>
    have : hk.1 = [] := by rw [hhk]; rfl
    rw [this]
    have e4 : r.1.copyIn r.2.1 [] = r.1 := by
      rw [Pg.copyIn_eq _ _ _ (by simpa using hb)]
      have : mCopy r.1.mem r.2.1 [] = r.1.mem := by
        funext x
        exact mCopy_out (by simp; omega)
      rw [this]
    rw [e4]
    rfl

set_option maxHeartbeats 1000000 in
theorem Rep.doReorg {s P right picks key kflags cut mk} (R : Rep s P) (hm : MkOk mk) (hp : PicksOk P 0 picks)
    (hk4 : ∀ p ∈ picks.drop 1, 4 ≤ (mk (P.pick p).words (P.pick p).flag).1.length)
    (hkey : right = false → key.length % 4 = 0 ∧ 4 ≤ key.length ∧ kflags < 4) :
    Rep (s.reorg mk cut right (picks.map s.pick) (key, kflags))
      (P.reorg mk cut right (picks.map P.pick) (key, kflags)) ∧
    (s.reorg mk cut right (picks.map s.pick) (key, kflags) = s ∧
        P.reorg mk cut right (picks.map P.pick) (key, kflags) = P ∨
      (P.reorg mk cut right (picks.map P.pick) (key, kflags)).right = right ∧
      (P.reorg mk cut right (picks.map P.pick) (key, kflags)).chunks.getLast?.map (·.kflags) =
        Option.some (if right then 0 else kflags) ∧
      (s.reorg mk cut right (picks.map s.pick) (key, kflags)).hikeysFixed =
        ((P.reorg mk cut right (picks.map P.pick) (key, kflags)).chunks.dropLast.all
            (fun k => decide (k.kflags % 2 = 1)) && (right || decide (kflags % 2 = 1)))) := by
  have hl := limit_ge P.leaf
  have hslim := R.slim
  have hbl : blck = 4096 := rfl
  have hdo : descOff = 28 := rfl
  obtain ⟨hsort, hits, hok⟩ := R.picks picks 0 P.start hp (fun k' q _ hq => (places_bounds (List.mem_of_getElem? hq)).1)
  obtain ⟨srcs, hsrcs⟩ : ∃ x, x = picks.map s.pick := ⟨_, rfl⟩
  obtain ⟨its, hitsd⟩ : ∃ x, x = picks.map P.pick := ⟨_, rfl⟩
  have hk4' : ∀ it ∈ its.drop 1, 4 ≤ (mk it.words it.flag).1.length := by
    intro it hi
    rw [hitsd, ← List.map_drop] at hi
    obtain ⟨p, hp, rfl⟩ := List.mem_map.mp hi
    exact hk4 p hp
  rw [← hsrcs] at hsort hits ⊢
  rw [← hitsd] at hits hok ⊢
  clear hsrcs hitsd hk4 hp picks
  obtain ⟨hk, hhk⟩ : ∃ x : List Nat × Nat, x = if right then ([], 0) else (key, kflags) := ⟨_, rfl⟩
  have hkm : hk.1.length % 4 = 0 := by
    cases right with
    | true => rw [hhk]; rfl
    | false => rw [hhk]; exact (hkey rfl).1
  have hk2 : hk.2 < 4 := by
    cases right with
    | true => rw [hhk]; simp
    | false => rw [hhk]; exact (hkey rfl).2.2
  have hslen : (srcs.map Src.size).sum = ilen its := by rw [← hits, slen_eq]; rfl
  have hlen : srcs.length = its.length := by rw [← hits, List.length_map]
  obtain ⟨d1, d2, d3, d4⟩ := dataStart_facts P.leaf hkm
  obtain ⟨e, he⟩ : ∃ e, e = dataStart P.leaf hk.1 := ⟨_, rfl⟩
  rw [← he] at d1 d2 d3 d4
  have e1 : (if right = true then [] else key) = hk.1 := by rw [hhk]; cases right <;> rfl
  by_cases hfit : blck < e + ilen its + al its.length
  · unfold Pg.reorg Page.reorg
    simp only
    rw [e1, ← hhk, R.leaf, ← he, hslen, hlen, if_pos hfit]
    have hil : (its.map fun x => x.words.length).sum = ilen its := rfl
    rw [hil, if_pos hfit]
    exact ⟨R, Or.inl ⟨rfl, rfl⟩⟩
  · obtain ⟨CS, hCS⟩ : ∃ x, x = cutChunks (fun x => (mk (x.words s) x.flag).1.length) Src.size cut s.leaf right hk.1 srcs :=
      ⟨_, rfl⟩
    obtain ⟨RR, hRR⟩ : ∃ x, x = cutChunks (fun it : Item => (mk it.words it.flag).1.length) (fun it => it.words.length) cut
      P.leaf right hk.1 its := ⟨_, rfl⟩
    have hsz : Src.size = fun x : Src => (Src.item s x).words.length := by
      funext x
      exact (x.words_length s).symm
    have hmap : RR = CS.map (·.map (Src.item s)) := by
      rw [hRR, hCS, ← hits, cutChunks_map, R.leaf, ← hsz]
      rfl
    have F := cutChunks_facts (fun it : Item => (mk it.words it.flag).1.length) cut P.leaf right (hk := hk.1) (its := its)
      hok hkm hk4' (by intro h; rw [hhk, h]; rfl) (by intro h; rw [hhk, h]; exact (hkey h).2.1)
      (by rw [← he]; omega)
    rw [← hRR] at F
    have Fd := F.data
    have Fk := F.kfit
    have Fl := F.klast
    have Fc := F.count
    rw [← he] at Fd Fk
    have hRl : RR.length = CS.length := by rw [hmap, List.length_map]
    have hcl : clen CS = (RR.map fun c => al c.length + ilen c).sum := by rw [clen_eq s, hmap]
    rw [← hcl] at Fd
    have hN := hdrLen_le CS.length
    have hflat : CS.flatten = srcs := by
      rw [hCS]
      cases srcs with
      | nil => rfl
      | cons x xs =>
        unfold cutChunks
        exact (cutLoop_facts ..).flat
    have h5 := ilen_ge hok
    have h6 := al_le its.length
    have hlen1 := F.len
    -- the first pass
    obtain ⟨s1, hs1⟩ : ∃ x : Pg, x = { s with
        rightmost := right
        dataSize := e + clen CS
        chunksCount := CS.length
        bad := s.bad || decide (maxChunks < CS.length ∨ maxChunkItems < srcs.length) } := ⟨_, rfl⟩
    have hbad : (s.bad || decide (maxChunks < CS.length ∨ maxChunkItems < srcs.length)) = false := by
      rw [R.fine, Bool.false_or]
      have h7 : maxChunks = 38 := rfl
      have h8 : maxChunkItems = 819 := rfl
      simp only [decide_eq_false_iff_not]
      omega
    obtain ⟨m1, b1, b2, b3⟩ := backChunks (s0 := s) CS (s := s1) (p := e) (lo := P.start) (by omega) Fd (by omega)
      (by rw [hflat]; exact hsort) (by
        intro a n f _
        rw [hs1]
        simp only
        intro i v hv
        obtain ⟨h1, h2⟩ := List.getElem?_eq_some_iff.mp hv
        rw [← h2]
        simp [Pg.read])
    obtain ⟨c0, cs, hc0⟩ : ∃ c cs, CS = c :: cs := by
      cases CS with
      | nil => rw [hRl] at hlen1; simp at hlen1
      | cons c cs => exact ⟨c, cs, rfl⟩
    obtain ⟨s2, hs2⟩ : ∃ x : Pg, x = { s1 with mem := m1 } := ⟨_, rfl⟩
    rw [← hs2] at b1
    have hleaf2 : s2.leaf = P.leaf := by rw [hs2, hs1]; exact R.leaf
    have hin : InPage CS.flatten := by
      rw [hflat]
      exact hsort.inPage (by omega)
    have hRc : RR = c0.map (Src.item s) :: cs.map (·.map (Src.item s)) := by rw [hmap, hc0]; rfl
    have hfull : ∀ c ∈ cs, c ≠ [] := by
      intro c hc h0
      refine F.full (c.map (Src.item s)) ?_ (by rw [h0]; rfl)
      rw [hRc, List.tail_cons]
      exact List.mem_map.mpr ⟨c, hc, rfl⟩
    have hfull' : ∀ c ∈ cs.map (·.map (Src.item s)), c ≠ [] := by
      intro c hc
      obtain ⟨c', h1, rfl⟩ := List.mem_map.mp hc
      have := hfull c' h1
      simpa using this
    obtain ⟨ks1, ks2⟩ := mkChunks_ksize mk P.leaf hk true (c0.map (Src.item s)) (cs.map (·.map (Src.item s))) hfull'
    rw [← hRc] at ks1 ks2
    obtain ⟨Q, hQ⟩ : ∃ Q, Q = mkChunks mk P.leaf hk true RR := ⟨_, rfl⟩
    rw [← hQ] at ks1 ks2
    have hQi : Q.map (·.items) = RR := by rw [hQ, mkChunks_items]
    have hRne : RR ≠ [] := by intro h0; rw [h0] at hlen1; simp at hlen1
    have hQn : Q.length = CS.length := by rw [hQ, mkChunks_length, hRl]
    have hQne : Q ≠ [] := by intro h0; rw [h0] at hQn; simp at hQn; omega
    have hQk := ksize_dropLast hQne
    rw [ks2] at hQk
    obtain ⟨hQd, hQc⟩ := dsize_of_items hQi
    rw [← hcl] at hQd
    rw [F.flat] at hQc
    have hQa : Aligned Q := by
      rw [hQ]
      exact mkChunks_aligned hm _ hkm hk2 _ (by rw [F.flat]; exact hok)
    rw [← ks1, hRl] at Fk Fl
    -- the first chunk
    rw [hc0, clen_cons] at Fd
    rw [hc0] at b2
    have hcN : CS.length = cs.length + 1 := by rw [hc0]; rfl
    have hfl : c0.length + cs.flatten.length = its.length := by
      rw [← hlen, ← hflat, hc0, List.flatten_cons, List.length_append]
    obtain ⟨m2, g1, g2, g3, g4, g5, g6⟩ := Pg.placeOne_at (s0 := s) (s := s2) (c := c0) (j := 0) (off := 0) (ptr := e)
      (N := CS.length) (fx := fixedKeys P.leaf 0 c0) (by omega) (by omega) (by omega) (by omega)
      (fun a n f hmem => hin a n f (by rw [hc0]; simp [hmem])) (by rw [hs2]; exact b2.1)
    have hll : (c0.map (Src.item s)).length = c0.length := List.length_map _
    have hli : ilen (c0.map (Src.item s)) = slen c0 := slen_eq s c0
    have hfx0 : fixedKeys P.leaf 0 c0 = fixedItems P.leaf true (c0.map (Src.item s)) := by
      unfold fixedKeys fixedItems
      cases P.leaf
      · simp only [Bool.not_false, decide_true, Bool.and_self, if_true, ← List.map_drop, List.all_map]
        rfl
      · simp only [Bool.not_true, Bool.false_and, Bool.false_eq_true, if_false, List.all_map]
        rfl
    obtain ⟨m3, j1, j2, j3⟩ := placeRest (s0 := s) hm P.leaf hk hk2 (N := CS.length) (e := e) cs
      (s := { s2 with mem := m2 }) (j := 1) (l := c0.map (Src.item s)) (first := true) (pp := e) (offp := 0)
      (hptr := hdrLen CS.length) (fx := true) (by omega) (by omega) (by omega) g2 g3 g4 (by rw [← hfx0]; exact g5)
      (by
        rw [hll, hli]
        refine (b2.2).same fun y hy => ?_
        simp only
        rw [g6 y (by omega), hs2])
      (fun a n f hmem => hin a n f (by rw [hc0, List.flatten_cons]; simp only [List.mem_append]; exact Or.inr hmem))
      hfull (by rw [← hRc, ← hQ]; omega) (by omega) (by rw [← hRc, ← hQ]; exact Fl) (by rw [hll, hli]; omega)
      (by rw [hll]; omega)
    rw [← hRc, ← hQ] at j2 j3
    rw [hll, hli] at j1 j3
    -- together
    have hplace : placeChunks mk s2.leaf CS 0 0 e (hdrLen CS.length) true s2 =
        placeChunks mk P.leaf cs 1 (0 + c0.length) (e + (al c0.length + slen c0)) (hdrLen CS.length) true
          { s2 with mem := m2 } := by
      rw [hleaf2]
      have ea : e + (al c0.length + slen c0) = e + al c0.length + slen c0 := by omega
      have := placeChunks_first mk P.leaf c0 cs 0 e (hdrLen CS.length) true s2
      rw [g1, ← hc0, hleaf2] at this
      rw [ea]
      exact this
    obtain ⟨r, hr⟩ : ∃ r, r = placeChunks mk P.leaf cs 1 (0 + c0.length) (e + (al c0.length + slen c0))
      (hdrLen CS.length) true { s2 with mem := m2 } := ⟨_, rfl⟩
    rw [← hr] at hplace j1 j3
    have hr1 : r.2.1 = hdrLen CS.length + ksize Q.dropLast := by rw [j3]
    have main := Pg.reorg_eq mk cut s right srcs (key, kflags) hk hhk (e := e) (by rw [he, R.leaf]) hCS
      (by rw [hslen, hlen]; exact hfit) hs1 b1 hplace.symm (by omega)
    rw [main, j1]
    have spec : P.reorg mk cut right its (key, kflags) = ⟨P.leaf, right, e, Q⟩ := by
      unfold Page.reorg
      simp only
      rw [← hhk, ← he]
      have hil : (its.map fun x => x.words.length).sum = ilen its := rfl
      rw [hil, if_neg hfit, ← hRR, hQ]
    rw [spec]
    rw [hs2, hs1]
    refine ⟨?_, Or.inr ⟨rfl, ?_, by simp only; rw [j3, Bool.true_and]⟩⟩
    rotate_left
    · simp only
      rw [hQ]
      exact (mkChunks_last mk P.leaf hk true RR hRne).trans (by rw [hhk]; cases right <;> rfl)
    refine ⟨?_, R.leaf, rfl, ?_, hQne, ?_, ?_, ?_, ?_, ?_, d2, d1, hQa, ?_, ?_, ?_, ?_, ?_⟩
    · exact hbad
    · exact hQn.symm
    · simp only
      rw [hlen, hQc]
    · simp only
      rw [hr1, hQn]
      omega
    · simp only
      omega
    · simp only
      rw [hQd, hc0, clen_cons]
      exact Fd
    · simp only
      rw [hQn]
      omega
    · simp only
      rw [hQn]
      exact Fl
    · intro h
      simp only at h ⊢
      rw [ks2, hhk, h]
      exact (hkey h).2.1
    · simp only
      rw [hQn]
      exact j2.descs
    · simp only
      rw [hQn]
      exact j2.keys
    · exact j2.chunks

end Verif.PageChunks
