import Verif.Fastpath.Page

/-!
# Trees: a search comes to the place of its key
-/

namespace Verif.Fastpath

/-! ## Items by chunk and by offset -/

theorem flat_base_succ {α} (L : List (Chunk α)) (c : Nat) (h : c < L.length) :
    ((L.take (c + 1)).flatMap (·.items)).length
      = ((L.take c).flatMap (·.items)).length + (L.getD c ⟨false, []⟩).items.length := by
  induction L generalizing c with
  | nil => simp at h
  | cons x L ih =>
    cases c with
    | zero => simp
    | succ c =>
      have := ih c (by simpa using h)
      simp only [List.take_succ_cons, List.flatMap_cons, List.length_append, List.getD_cons_succ]
      omega

theorem flat_get {α} (L : List (Chunk α)) (c i : Nat)
    (hi : i < (L.getD c ⟨false, []⟩).items.length) :
    (L.flatMap (·.items))[((L.take c).flatMap (·.items)).length + i]?
      = (L.getD c ⟨false, []⟩).items[i]? := by
  induction L generalizing c with
  | nil => simp at hi
  | cons x L ih =>
    cases c with
    | zero =>
      simp only [List.getD_cons_zero] at hi
      simp only [List.take_zero, List.flatMap_nil, List.length_nil, Nat.zero_add,
        List.flatMap_cons, List.getD_cons_zero]
      rw [List.getElem?_append_left hi]
    | succ c =>
      simp only [List.getD_cons_succ] at hi
      simp only [List.take_succ_cons, List.flatMap_cons, List.length_append, List.getD_cons_succ]
      rw [List.getElem?_append_right (by omega)]
      rw [show x.items.length + ((L.take c).flatMap (·.items)).length + i - x.items.length
        = ((L.take c).flatMap (·.items)).length + i by omega]
      exact ih c hi

theorem flat_loc {α} (L : List (Chunk α)) (g : Nat) (h : g < (L.flatMap (·.items)).length) :
    ∃ c i, c < L.length ∧ i < (L.getD c ⟨false, []⟩).items.length ∧
      g = ((L.take c).flatMap (·.items)).length + i := by
  induction L generalizing g with
  | nil => simp at h
  | cons x L ih =>
    by_cases hg : g < x.items.length
    · exact ⟨0, g, by simp, by simpa using hg, by simp⟩
    · simp only [List.flatMap_cons, List.length_append] at h
      obtain ⟨c, i, h1, h2, h3⟩ := ih (g - x.items.length) (by omega)
      refine ⟨c + 1, i, by simpa using h1, by simpa using h2, ?_⟩
      simp only [List.take_succ_cons, List.flatMap_cons, List.length_append]
      omega

theorem Page.base_succ {α} (p : Page α) {c : Nat} (h : c < p.chunks.length) :
    p.base (c + 1) = p.base c + (p.itemsAt c).length := flat_base_succ p.chunks c h

theorem Page.itemsAt_lt {α} (p : Page α) {c i : Nat} (h : i < (p.itemsAt c).length) :
    c < p.chunks.length := by
  rcases Nat.lt_or_ge c p.chunks.length with h1 | h1
  · exact h1
  · unfold Page.itemsAt at h
    rw [List.getD_eq_getElem?_getD, List.getElem?_eq_none h1] at h
    simp at h

theorem Page.base_mono {α} (p : Page α) {c d : Nat} (h : c < d) (hd : d ≤ p.chunks.length) :
    p.base c + (p.itemsAt c).length ≤ p.base d := by
  induction d with
  | zero => omega
  | succ d ih =>
    rw [p.base_succ (by omega)]
    rcases Nat.lt_or_ge c d with h1 | h1
    · have := ih h1 (by omega); omega
    · have : c = d := by omega
      subst this; omega

theorem Page.base_all {α} (p : Page α) : p.base p.chunks.length = p.items.length := by
  simp [Page.base, Page.items]

theorem Page.get {α} (p : Page α) {c i : Nat} (hi : i < (p.itemsAt c).length) :
    p.items[p.base c + i]? = (p.itemsAt c)[i]? := flat_get p.chunks c i hi

theorem Page.loc {α} (p : Page α) {g : Nat} (h : g < p.items.length) :
    ∃ c i, c < p.chunks.length ∧ i < (p.itemsAt c).length ∧ g = p.base c + i :=
  flat_loc p.chunks g h

/-- The key at an offset. -/
def Page.keyG {α} (p : Page α) (g : Nat) : Row := (p.items.map (·.1)).getD g []

theorem Page.keyG_eq {α} (p : Page α) {c i : Nat} (hi : i < (p.itemsAt c).length) :
    p.keyG (p.base c + i) = p.key c i := by
  unfold Page.keyG Page.key
  rw [List.getD_eq_getElem?_getD, List.getD_eq_getElem?_getD, List.getElem?_map, List.getElem?_map,
    p.get hi]

theorem Page.base_zero {α} (p : Page α) : p.base 0 = 0 := by simp [Page.base]

/-- Chunk and item determine the order of offsets. -/
theorem Page.loc_lt {α} (p : Page α) {c i d j : Nat} (hi : i < (p.itemsAt c).length)
    (hj : j < (p.itemsAt d).length) (h : p.base c + i < p.base d + j) :
    c < d ∨ (c = d ∧ i < j) := by
  rcases Nat.lt_trichotomy c d with h1 | h1 | h1
  · exact Or.inl h1
  · subst h1; exact Or.inr ⟨rfl, by omega⟩
  · have := p.base_mono h1 (by have := p.itemsAt_lt hi; omega)
    omega

theorem PageOk.hk_ge {α} {ix : Idx} {leaf : Bool} {p : Page α} (ok : PageOk ix leaf p) :
    p.chunks.length - 1 ≤ p.hikeys.length := by
  rw [ok.len]; split <;> omega

theorem Idx.cmp_le_trans {ix : Idx} {a b c : Row} (ha : ix.Full a) (hb : ix.Full b) (hc : ix.Full c)
    (h1 : ix.cmp a b ≤ 0) (h2 : ix.cmp b c ≤ 0) : ix.cmp a c ≤ 0 :=
  (cmpRows_trans ha.long hb.long hc.long h1 h2).1

theorem Idx.cmp_lt_le {ix : Idx} {a b c : Row} (ha : ix.Full a) (hb : ix.Full b) (hc : ix.Full c)
    (h1 : ix.cmp a b < 0) (h2 : ix.cmp b c ≤ 0) : ix.cmp a c < 0 :=
  (cmpRows_trans ha.long hb.long hc.long (Int.le_of_lt h1) h2).2 (Or.inl h1)

/-- The keys of a page ascend. -/
theorem PageOk.keyG_lt {α} {ix : Idx} {leaf : Bool} {p : Page α} (ok : PageOk ix leaf p) {g h : Nat}
    (hgh : g < h) (hh : h < p.items.length) (h0 : leaf = true ∨ 0 < g) :
    ix.cmp (p.keyG g) (p.keyG h) < 0 := by
  obtain ⟨c, i, hc, hi, rfl⟩ := p.loc (Nat.lt_trans hgh hh)
  obtain ⟨d, j, hd, hj, rfl⟩ := p.loc hh
  rw [p.keyG_eq hi, p.keyG_eq hj]
  have hci : leaf = true ∨ 0 < c + i := by
    rcases h0 with h0 | h0
    · exact Or.inl h0
    · right
      rcases Nat.eq_zero_or_pos (c + i) with hz | hz
      · have hc0 : c = 0 := by omega
        subst hc0
        rw [p.base_zero] at h0
        omega
      · exact hz
  rcases p.loc_lt hi hj hgh with h1 | ⟨h1, h2⟩
  · have hk := ok.hk_ge
    obtain ⟨e, rfl⟩ : ∃ e, d = e + 1 := ⟨d - 1, by omega⟩
    have f1 := ok.fullI c i hi hci
    have f2 := ok.fullI (e + 1) j hj (Or.inr (by omega))
    have a1 := ok.below c i hi (by omega) hci
    have a2 := ok.cmpH (c := c) (d := e) (by omega) (by omega)
    have a3 := ok.above e j hj (by omega)
    exact Idx.cmp_lt_le f1 (ok.fullH c (by omega)) f2 a1
      (Idx.cmp_le_trans (ok.fullH c (by omega)) (ok.fullH e (by omega)) f2 a2 a3)
  · subst h1
    exact ok.sortI c i j h2 hj hci

theorem PageOk.fullG {α} {ix : Idx} {leaf : Bool} {p : Page α} (ok : PageOk ix leaf p) {g : Nat}
    (hg : g < p.items.length) (h0 : leaf = true ∨ 0 < g) : ix.Full (p.keyG g) := by
  obtain ⟨c, i, hc, hi, rfl⟩ := p.loc hg
  rw [p.keyG_eq hi]
  refine ok.fullI c i hi ?_
  rcases h0 with h0 | h0
  · exact Or.inl h0
  · right
    rcases Nat.eq_zero_or_pos (c + i) with hz | hz
    · have hc0 : c = 0 := by omega
      subst hc0
      rw [p.base_zero] at h0
      omega
    · exact hz

/-! ## Where the regular search ends on a page -/

/-- In an internal page. -/
theorem slowDownlink_spec {α} {ix : Idx} {p : Page α} (ok : PageOk ix false p) {k : SKey}
    (hk : ix.KeyOk k) (hg : goesRight ix k p = false) :
    ∃ l, slowDownlink ix k p = .at l ∧ p.offset l < p.items.length ∧
      (∀ g, 0 < g → g ≤ p.offset l → ix.left k (p.keyG g)) ∧
      (∀ g, p.offset l < g → g < p.items.length → ¬ ix.left k (p.keyG g)) := by
  obtain ⟨c1, c2, c3⟩ := searchChunks_spec ok hk
  generalize hc : searchChunks ix k p = c at *
  have hpos := ok.pos
  have hcl : c < p.chunks.length := by omega
  have hkge := ok.hk_ge
  obtain ⟨s0, s1, s2, s3⟩ := searchItems_spec ok hk (c := c)
  have hslow : slowDownlink ix k p =
      match prevLoc p ⟨c, searchItems ix k false c (p.itemsAt c)⟩ with
      | some l => .at l
      | none => .right := by
    unfold slowDownlink
    rw [hg]
    simp only [Bool.false_eq_true, if_false]
    cases k <;> first
      | exact (show False from hk).elim
      | (simp only [pageSearch, hc]
         generalize prevLoc p _ = o
         cases o <;> rfl)
  generalize hi : searchItems ix k false c (p.itemsAt c) = i at *
  have hne := ok.filled rfl c hcl
  -- the location before
  have hprev : ∃ l, prevLoc p ⟨c, i⟩ = some l ∧ p.offset l + 1 = p.base c + i := by
    unfold prevLoc
    by_cases h : 0 < i
    · refine ⟨⟨c, i - 1⟩, by simp [h], ?_⟩
      simp only [Page.offset]; omega
    · have h0 : i = 0 := by omega
      subst h0
      have hc0 : c ≠ 0 := fun hh => by
        have := s0 hh hne; omega
      obtain ⟨d, rfl⟩ : ∃ d, c = d + 1 := ⟨c - 1, by omega⟩
      have hd := ok.filled rfl d (by omega)
      have hd0 : ¬ (p.itemsAt d).length = 0 := by omega
      refine ⟨⟨d, (p.itemsAt d).length - 1⟩, by simp [prevChunk, hd0], ?_⟩
      simp only [Page.offset]
      rw [p.base_succ (by omega)]
      omega
  obtain ⟨l, hl1, hl2⟩ := hprev
  have htot : p.base c + (p.itemsAt c).length ≤ p.items.length := by
    rw [← p.base_all]; exact p.base_mono hcl (Nat.le_refl _)
  refine ⟨l, ?_, by omega, ?_, ?_⟩
  · rw [hslow, hl1]
  · intro g g0 hgl
    have hgi : g < p.items.length := by omega
    obtain ⟨d, j, hd, hj, rfl⟩ := p.loc hgi
    rw [p.keyG_eq hj]
    have hdj : 0 < d + j := by
      rcases Nat.eq_zero_or_pos (d + j) with hz | hz
      · have hc0 : d = 0 := by omega
        subst hc0
        rw [p.base_zero] at g0
        omega
      · exact hz
    have hlt : p.base d + j < p.base c + i := by omega
    rcases Nat.lt_trichotomy d c with h1 | h1 | h1
    · exact Idx.left_anti hk (ok.fullI d j hj (Or.inr hdj)) (ok.fullH d (by omega))
        (Int.le_of_lt (ok.below d j hj (by omega) (Or.inr hdj))) (c2 d h1)
    · subst h1
      exact s2 j (by omega) hdj
    · have := p.base_mono h1 (by omega)
      omega
  · intro g hgl hgi hleft
    obtain ⟨d, j, hd, hj, rfl⟩ := p.loc hgi
    rw [p.keyG_eq hj] at hleft
    rcases Nat.lt_trichotomy d c with h1 | h1 | h1
    · have := p.base_mono h1 (by omega)
      omega
    · subst h1
      have hdj : 0 < d + j := by
        rcases Nat.eq_zero_or_pos (d + j) with hz | hz
        · have := s0 (by omega) hne; omega
        · exact hz
      exact s3 j (by omega) hj hdj hleft
    · obtain ⟨e, rfl⟩ : ∃ e, d = e + 1 := ⟨d - 1, by omega⟩
      refine c3 e (by omega) (by omega) ?_
      exact Idx.left_anti hk (ok.fullH e (by omega)) (ok.fullI (e + 1) j hj (Or.inr (by omega)))
        (ok.above e j hj (by omega)) hleft

/-! ## Strictness -/

theorem cmpBnd_strict {fs : List Field} {bs : List VB} {a b : Row} {fin : Int}
    (hl : bs.length = fs.length ∨ fs.length ≤ bs.length)
    (h : cmpRows fs a b < 0) (hb : 0 ≤ cmpBnd fin fs bs b) : 0 < cmpBnd fin fs bs a := by
  induction fs generalizing a b bs with
  | nil => simp [cmpRows] at h
  | cons f fs ih =>
    cases a with
    | nil => simp [cmpRows] at h
    | cons x a =>
      cases b with
      | nil => simp [cmpRows] at h
      | cons y b =>
        cases bs with
        | nil => simp at hl
        | cons v bs =>
          simp only [List.length_cons, Nat.add_right_cancel_iff, Nat.add_le_add_iff_right] at hl
          simp only [cmpBnd] at hb ⊢
          by_cases hi : f.ignored = true
          · rw [cmpRows_ign hi] at h
            rw [if_pos hi] at hb ⊢
            exact ih hl h hb
          · rw [if_neg hi] at hb ⊢
            by_cases hu : v.unb = true
            · rw [if_pos hu] at hb ⊢
              cases hlo : v.lower
              · simp
              · rw [hlo] at hb; simp at hb
            · rw [if_neg hu] at hb ⊢
              by_cases h0 : cmpCol f x y = 0
              · rw [cmpRows_same hi h0] at h
                have hxy := cmpCol_zero.1 h0
                rw [hxy]
                by_cases hc : cmpVal f v y ≠ 0
                · rw [if_pos hc] at hb ⊢
                  omega
                · rw [if_neg hc] at hb ⊢
                  exact ih hl h hb
              · rw [cmpRows_diff hi h0] at h
                have hy : 0 ≤ cmpVal f v y := by
                  by_cases hc : cmpVal f v y ≠ 0
                  · rw [if_pos hc] at hb; exact hb
                  · omega
                have := cmpVal_anti h hy
                rw [if_pos (by omega)]
                exact this

/-- A key for rows: complete. -/
def Idx.RowKey (ix : Idx) : SKey → Prop
  | .bound bs => bs.length = ix.fields.length
  | .tuple r => ix.Full r
  | _ => False

theorem Idx.RowKey.ok {ix : Idx} {k : SKey} (h : ix.RowKey k) : ix.KeyOk k := by
  cases k <;> first | exact trivial | exact h | exact (show False from h).elim

theorem Idx.RowKey.nh {ix : Idx} {k : SKey} (h : ix.RowKey k) : k.isHikey = false := by
  cases k <;> first | rfl | exact (show False from h).elim

theorem Idx.left_iff {ix : Idx} {k : SKey} (h : ix.RowKey k) {r : Row} :
    ix.left k r ↔ 0 ≤ ix.cmpKey k r := by
  unfold Idx.left
  rw [h.nh]
  simp

theorem Idx.cmpKey_strict {ix : Idx} {k : SKey} (hk : ix.RowKey k) {a b : Row} (ha : ix.Full a)
    (hb : ix.Full b) (h : ix.cmp a b < 0) (h0 : 0 ≤ ix.cmpKey k b) : 0 < ix.cmpKey k a := by
  cases k with
  | bound bs =>
    have hlen : bs.length = ix.fields.length := hk
    exact cmpBnd_strict (Or.inr (by have := ix.cols_le; omega)) h h0
  | tuple r =>
    simp only [Idx.cmpKey] at h0 ⊢
    have n1 := cmpRows_neg ix.cols r b
    have n2 := cmpRows_neg ix.cols r a
    have := Idx.cmp_lt_le ha hb hk h (by simp only [Idx.cmp] at *; omega)
    simp only [Idx.cmp] at *
    omega
  | _ => exact (show False from hk).elim

/-! ## Leaves -/

/-- Where the key `kk` lies to one side of a row, so does the key `k`. -/
def Idx.Near (ix : Idx) (k kk : SKey) : Prop :=
  ∀ r, ix.Full r → (0 < ix.cmpKey kk r → 0 < ix.cmpKey k r) ∧
    (ix.cmpKey kk r < 0 → ix.cmpKey k r < 0)

theorem Idx.Near.self {ix : Idx} {k : SKey} : ix.Near k k := fun _ _ => ⟨id, id⟩

/-- The place of `k` among the items of the chunk of `kk`. -/
def leafLoc (ix : Idx) (k kk : SKey) (p : Page Unit) : Loc :=
  ⟨searchChunks ix kk p, searchItems ix k true (searchChunks ix kk p)
    (p.itemsAt (searchChunks ix kk p))⟩

/-- In a leaf. -/
theorem leafSearch_spec {ix : Idx} {p : Page Unit} (ok : PageOk ix true p) {k kk : SKey}
    (hk : ix.RowKey k) (hkk : ix.RowKey kk) (hnear : ix.Near k kk) :
    p.offset (leafLoc ix k kk p) ≤ p.items.length ∧
      (∀ g, g < p.offset (leafLoc ix k kk p) → 0 < ix.cmpKey k (p.keyG g)) ∧
      (∀ g, p.offset (leafLoc ix k kk p) ≤ g → g < p.items.length →
        ix.cmpKey k (p.keyG g) ≤ 0) := by
  obtain ⟨c1, c2, c3⟩ := searchChunks_spec ok hkk.ok
  unfold leafLoc Page.offset
  dsimp only
  generalize hc : searchChunks ix kk p = c at *
  have hpos := ok.pos
  have hcl : c < p.chunks.length := by omega
  have hkge := ok.hk_ge
  have hI : searchItems ix k true c (p.itemsAt c) ≤ (p.itemsAt c).length ∧
      (∀ i, i < searchItems ix k true c (p.itemsAt c) → 0 < ix.cmpKey k (p.key c i)) ∧
      (∀ i, searchItems ix k true c (p.itemsAt c) ≤ i → i < (p.itemsAt c).length →
        ix.cmpKey k (p.key c i) ≤ 0) := by
    unfold searchItems
    by_cases h0 : (p.itemsAt c).length = 0
    · rw [if_pos h0]
      exact ⟨Nat.zero_le _, fun i hi => (by omega), fun i _ hi => (by omega)⟩
    · rw [if_neg h0]
      simp only [Bool.not_true, Bool.false_and, Bool.false_eq_true, if_false]
      obtain ⟨_, h2, h3, h4⟩ := bsearch_spec (fun i =>
          ix.cmpKey k (((p.itemsAt c).map (·.1)).getD i []))
        1 (p.itemsAt c).length 0 (p.itemsAt c).length (Nat.zero_le _) (by omega)
        (by
          intro i j _ hij hj hlj
          have := (Idx.cmpKey_anti hk.ok (ok.fullI c i (by omega) (Or.inl rfl))
            (ok.fullI c j hj (Or.inl rfl)) (ok.cmpI hij hj (Or.inl rfl))).2 (by
              show 0 < ix.cmpKey k (((p.itemsAt c).map (·.1)).getD j [])
              omega)
          have h5 : 0 < ix.cmpKey k (((p.itemsAt c).map (·.1)).getD i []) := this
          omega)
      refine ⟨h2, fun i hi => ?_, fun i hi hi' => ?_⟩
      · have := h3 i (Nat.zero_le _) hi
        show 0 < ix.cmpKey k (((p.itemsAt c).map (·.1)).getD i [])
        omega
      · have := h4 i hi hi'
        show ix.cmpKey k (((p.itemsAt c).map (·.1)).getD i []) ≤ 0
        omega
  generalize hi : searchItems ix k true c (p.itemsAt c) = i at *
  obtain ⟨s1, s2, s3⟩ := hI
  have htot : p.base c + (p.itemsAt c).length ≤ p.items.length := by
    rw [← p.base_all]; exact p.base_mono hcl (Nat.le_refl _)
  refine ⟨by omega, ?_, ?_⟩
  · intro g hgl
    have hgi : g < p.items.length := by omega
    obtain ⟨d, j, hd, hj, rfl⟩ := p.loc hgi
    rw [p.keyG_eq hj]
    rcases Nat.lt_trichotomy d c with h1 | h1 | h1
    · exact (hnear _ (ok.fullI d j hj (Or.inl rfl))).1
        (Idx.cmpKey_strict hkk (ok.fullI d j hj (Or.inl rfl)) (ok.fullH d (by omega))
          (ok.below d j hj (by omega) (Or.inl rfl)) ((Idx.left_iff hkk).1 (c2 d h1)))
    · subst h1
      exact s2 j (by omega)
    · have := p.base_mono h1 (by omega)
      omega
  · intro g hgl hgi
    obtain ⟨d, j, hd, hj, rfl⟩ := p.loc hgi
    rw [p.keyG_eq hj]
    rcases Nat.lt_trichotomy d c with h1 | h1 | h1
    · have := p.base_mono h1 (by omega)
      omega
    · subst h1
      exact s3 j (by omega) hj
    · obtain ⟨e, rfl⟩ : ∃ e, d = e + 1 := ⟨d - 1, by omega⟩
      have hnl := c3 e (by omega) (by omega)
      rw [Idx.left_iff hkk] at hnl
      have := (Idx.cmpKey_anti hkk.ok (ok.fullH e (by omega)) (ok.fullI (e + 1) j hj (Or.inl rfl))
        (ok.above e j hj (by omega))).1
      rcases Int.lt_or_le (ix.cmpKey kk (p.key (e + 1) j)) 0 with h5 | h5
      · exact Int.le_of_lt ((hnear _ (ok.fullI (e + 1) j hj (Or.inl rfl))).2 h5)
      · exact absurd (this h5) hnl

/-! ## Trees -/

/-- The upper end of a page. -/
def Page.hi {α} (p : Page α) : Option Row := if p.rightmost then none else p.hikeys.getLast?

/-- A well-formed tree with the keys from `lo` on and below `hi`: pages are well formed, and a
child has the keys between its separator and the next one. -/
def TreeOk (ix : Idx) : (n : Nat) → Option Row → Option Row → Tree n → Prop
  | 0, lo, hi, (p : Page Unit) =>
    PageOk ix true p ∧ p.hi = hi ∧
      ∀ l, lo = some l → ix.Full l ∧ ∀ it ∈ p.items, ix.cmp l it.1 ≤ 0
  | n + 1, lo, hi, (p : Page (Tree n)) =>
    PageOk ix false p ∧ p.hi = hi ∧
      (∀ l, lo = some l → ix.Full l ∧
        ∀ g, 0 < g → g < p.items.length → ix.cmp l (p.keyG g) ≤ 0) ∧
      ∀ g it, p.items[g]? = some it →
        TreeOk ix n (if g = 0 then lo else some it.1)
          (match p.items[g + 1]? with
           | some nx => some nx.1
           | none => hi) it.2

/-- No key in the tree is NaN in any column. -/
def TreeNoNan : (n : Nat) → Tree n → Prop
  | 0, (p : Page Unit) => PageNoNan true p
  | n + 1, (p : Page (Tree n)) => PageNoNan false p ∧ ∀ it ∈ p.items, TreeNoNan n it.2

/-- A tree of a table or index: all keys. -/
def TreeWf (ix : Idx) (n : Nat) (t : Tree n) : Prop := TreeOk ix n none none t

theorem Page.goesRight_hi {α} {ix : Idx} {leaf : Bool} {p : Page α} (ok : PageOk ix leaf p)
    {k : SKey} (hk : ix.RowKey k) (h : ∀ r, p.hi = some r → ix.cmpKey k r < 0) :
    goesRight ix k p = false := by
  unfold goesRight
  cases hr : p.rightmost with
  | true => cases k <;> simp
  | false =>
    have hl := ok.len
    rw [hr] at hl
    have hp := ok.pos
    have hlen : 0 < p.hikeys.length := by simp at hl; omega
    have hlast : p.hi = some (p.hikeys.getD (p.hikeys.length - 1) []) := by
      unfold Page.hi
      rw [hr]
      simp only [Bool.false_eq_true, if_false]
      rw [List.getLast?_eq_getElem?, List.getD_eq_getElem?_getD,
        List.getElem?_eq_getElem (by omega)]
      rfl
    have hc := h _ hlast
    have hnh := hk.nh
    rw [hnh]
    have : ¬ (0 : Int) ≤ ix.cmpKey k (p.hikeys.getD (p.hikeys.length - 1) []) := by omega
    simp only [Bool.false_eq_true, if_false, this, decide_false, Bool.and_false]
    cases k <;> rfl

theorem findItem_slow {ix : Idx} {k : SKey} (hk : ix.RowKey k) {p : Page Unit}
    (hg : goesRight ix k p = false) : findItem ix false k p = .at (pageSearch ix k true p) := by
  unfold findItem
  simp only [hg, Bool.false_eq_true, if_false]
  cases k <;> first | rfl | exact (show False from hk).elim

theorem findItem_fast {ix : Idx} (hix : ix.Wf) {k : SKey} (hk : ix.RowKey k) (hs : ix.safe k = true)
    {p : Page Unit} (ok : PageOk ix true p) (hn : PageNoNan true p) :
    findItem ix true k p = findItem ix false k p := by
  unfold findItem
  simp only [if_true, Bool.false_eq_true, if_false]
  cases hm : ix.fastMeta k with
  | none => rfl
  | some m =>
    dsimp only
    cases hc : fastChunk m p with
    | none => rfl
    | some c =>
      dsimp only
      obtain ⟨h1, h2⟩ := fastChunk_eq hix ok hn hk.ok hs hm hc
      rw [h2]
      simp only [Bool.false_eq_true, if_false]
      cases k <;> first
        | exact (show False from hk).elim
        | (simp only [pageSearch, h1])

theorem findDownlink_fast {α} {ix : Idx} (hix : ix.Wf) {k : SKey} (hk : ix.KeyOk k)
    (hs : ix.safe k = true) {p : Page α} (ok : PageOk ix false p) (hn : PageNoNan false p) :
    findDownlink ix true k p = findDownlink ix false k p := by
  unfold findDownlink
  simp only [if_true, Bool.false_eq_true, if_false]
  cases hm : ix.fastMeta k with
  | none => rfl
  | some m =>
    dsimp only
    cases hl : fastDownlink m p with
    | none => rfl
    | some l => exact (fastDownlink_eq hix ok hn hk hs hm hl).symm

/-- The fast path comes to the place of the regular search. -/
theorem descend_fast {ix : Idx} (hix : ix.Wf) {k : SKey} (hk : ix.RowKey k) (hs : ix.safe k = true) :
    ∀ (n : Nat) (lo hi : Option Row) (t : Tree n), TreeOk ix n lo hi t → TreeNoNan n t →
      descend ix true k n t = descend ix false k n t := by
  intro n
  induction n with
  | zero =>
    intro lo hi p ok hn
    simp only [descend]
    rw [findItem_fast hix hk hs ok.1 hn]
  | succ n ih =>
    intro lo hi p ok hn
    simp only [descend]
    rw [findDownlink_fast hix hk.ok hs ok.1 hn.1]
    cases findDownlink ix false k p with
    | right => rfl
    | «at» l =>
      dsimp only
      cases hit : p.items[p.offset l]? with
      | none => rfl
      | some it =>
        dsimp only
        rw [ih _ _ it.2 (ok.2.2.2 _ it hit) (hn.2 it (List.mem_of_getElem? hit))]

/-! ## Rows of a tree -/

theorem Page.keyG_get {α} {p : Page α} {g : Nat} {it : Row × α} (h : p.items[g]? = some it) :
    p.keyG g = it.1 := by
  unfold Page.keyG
  rw [List.getD_eq_getElem?_getD, List.getElem?_map, h]
  rfl

/-- Keys below the upper end of their page. -/
theorem PageOk.below_hi {α} {ix : Idx} {leaf : Bool} {p : Page α} (ok : PageOk ix leaf p) {h : Row}
    (hh : p.hi = some h) : ix.Full h ∧
      ∀ g, g < p.items.length → (leaf = true ∨ 0 < g) → ix.cmp (p.keyG g) h < 0 := by
  unfold Page.hi at hh
  cases hrm : p.rightmost with
  | true => rw [hrm] at hh; cases hh
  | false =>
    rw [hrm] at hh
    simp only [Bool.false_eq_true, if_false] at hh
    have hl := ok.len
    rw [hrm] at hl
    simp only [Bool.false_eq_true, if_false, Nat.sub_zero] at hl
    have hpos := ok.pos
    rw [List.getLast?_eq_getElem?] at hh
    have hlast : h = p.hikey (p.hikeys.length - 1) := by
      unfold Page.hikey
      rw [List.getD_eq_getElem?_getD, hh]
      rfl
    refine ⟨by rw [hlast]; exact ok.fullH _ (by omega), ?_⟩
    intro g hgl h0
    obtain ⟨c, i, hc, hi, rfl⟩ := p.loc hgl
    have hci : leaf = true ∨ 0 < c + i := by
      rcases h0 with h0 | h0
      · exact Or.inl h0
      · right
        rcases Nat.eq_zero_or_pos (c + i) with hz | hz
        · have hc0 : c = 0 := by omega
          subst hc0
          rw [p.base_zero] at h0
          omega
        · exact hz
    rw [p.keyG_eq hi, hlast]
    exact Idx.cmp_lt_le (ok.fullI c i hi hci) (ok.fullH c (by omega))
      (ok.fullH _ (by omega)) (ok.below c i hi (by omega) hci)
      (ok.cmpH (by omega) (by omega))

/-- The rows of a tree lie between its ends. -/
theorem TreeOk.between {ix : Idx} : ∀ (n : Nat) (lo hi : Option Row) (t : Tree n),
    TreeOk ix n lo hi t → ∀ r ∈ Tree.rows n t,
      ix.Full r ∧ (∀ l, lo = some l → ix.Full l ∧ ix.cmp l r ≤ 0) ∧
      (∀ h, hi = some h → ix.Full h ∧ ix.cmp r h < 0) := by
  intro n
  induction n with
  | zero =>
    intro lo hi p ok r hr
    obtain ⟨okp, hhi, hlo⟩ := ok
    simp only [Tree.rows] at hr
    obtain ⟨it, hit, rfl⟩ := List.mem_map.1 hr
    obtain ⟨g, hg⟩ := List.mem_iff_getElem?.1 hit
    have hgl : g < p.items.length := (List.getElem?_eq_some_iff.1 hg).1
    have hkey := Page.keyG_get hg
    refine ⟨by rw [← hkey]; exact okp.fullG hgl (Or.inl rfl),
      fun l hl => ⟨(hlo l hl).1, (hlo l hl).2 it hit⟩, ?_⟩
    intro h hh
    obtain ⟨fh, hb⟩ := okp.below_hi (by rw [hhi]; exact hh)
    refine ⟨fh, ?_⟩
    rw [← hkey]
    exact hb g hgl (Or.inl rfl)
  | succ n ih =>
    intro lo hi p ok r hr
    obtain ⟨okp, hhi, hlo, hkids⟩ := ok
    simp only [Tree.rows] at hr
    obtain ⟨it, hit, hr⟩ := List.mem_flatMap.1 hr
    obtain ⟨g, hg⟩ := List.mem_iff_getElem?.1 hit
    have hgl : g < p.items.length := (List.getElem?_eq_some_iff.1 hg).1
    have hkey := Page.keyG_get hg
    obtain ⟨f, b1, b2⟩ := ih _ _ it.2 (hkids g it hg) r hr
    refine ⟨f, ?_, ?_⟩
    · intro l hl
      obtain ⟨fl, hl2⟩ := hlo l hl
      refine ⟨fl, ?_⟩
      by_cases hg0 : g = 0
      · exact (b1 l (by rw [if_pos hg0]; exact hl)).2
      · obtain ⟨f1, c1⟩ := b1 it.1 (by rw [if_neg hg0])
        have := hl2 g (by omega) hgl
        rw [hkey] at this
        exact Idx.cmp_le_trans fl f1 f this c1
    · intro h hh
      obtain ⟨fh, hb⟩ := okp.below_hi (by rw [hhi]; exact hh)
      refine ⟨fh, ?_⟩
      cases hnx : p.items[g + 1]? with
      | none => exact (b2 h (by rw [hnx]; exact hh)).2
      | some nx =>
        obtain ⟨f2, c2⟩ := b2 nx.1 (by rw [hnx])
        have hnl : g + 1 < p.items.length := (List.getElem?_eq_some_iff.1 hnx).1
        have := hb (g + 1) hnl (Or.inr (by omega))
        rw [Page.keyG_get hnx] at this
        exact Idx.cmp_lt_le f f2 fh c2 (Int.le_of_lt this)

theorem pairwise_flatMap {α β} {R : β → β → Prop} {f : α → List β} :
    ∀ {l : List α}, (∀ x ∈ l, (f x).Pairwise R) →
      (∀ (i j : Nat) (x y : α), l[i]? = some x → l[j]? = some y → i < j → ∀ a ∈ f x, ∀ b ∈ f y, R a b) →
      (l.flatMap f).Pairwise R := by
  intro l
  induction l with
  | nil => intro _ _; simp
  | cons x l ih =>
    intro h1 h2
    rw [List.flatMap_cons, List.pairwise_append]
    refine ⟨h1 x (List.mem_cons_self ..), ih (fun y hy => h1 y (List.mem_cons_of_mem _ hy))
      (fun i j a b hi hj hij => h2 (i + 1) (j + 1) a b (by simpa using hi) (by simpa using hj)
        (by omega)), ?_⟩
    intro a ha b hb
    obtain ⟨y, hy, hb⟩ := List.mem_flatMap.1 hb
    obtain ⟨j, hj⟩ := List.mem_iff_getElem?.1 hy
    exact h2 0 (j + 1) x y rfl (by simpa using hj) (by omega) a ha b hb

/-- The rows of a tree ascend. -/
theorem TreeOk.sorted {ix : Idx} : ∀ (n : Nat) (lo hi : Option Row) (t : Tree n),
    TreeOk ix n lo hi t → (Tree.rows n t).Pairwise (fun a b => ix.cmp a b < 0) := by
  intro n
  induction n with
  | zero =>
    intro lo hi p ok
    simp only [Tree.rows]
    rw [List.pairwise_iff_getElem]
    intro i j hi' hj' hij
    simp only [List.length_map] at hi' hj'
    have := ok.1.keyG_lt hij hj' (Or.inl rfl)
    have e : ∀ g (h : g < p.items.length), p.keyG g = (p.items.map (·.1))[g]'(by simpa using h) := by
      intro g h
      unfold Page.keyG
      rw [List.getD_eq_getElem?_getD, List.getElem?_eq_getElem (by simpa using h)]
      rfl
    rw [e i hi', e j hj'] at this
    exact this
  | succ n ih =>
    intro lo hi p ok
    obtain ⟨okp, hhi, hlo, hkids⟩ := ok
    simp only [Tree.rows]
    apply pairwise_flatMap
    · intro it hit
      obtain ⟨g, hg⟩ := List.mem_iff_getElem?.1 hit
      exact ih _ _ it.2 (hkids g it hg)
    · intro i j x y hx hy hij a ha b hb
      have hjl : j < p.items.length := (List.getElem?_eq_some_iff.1 hy).1
      obtain ⟨fa, _, a2⟩ := TreeOk.between n _ _ x.2 (hkids i x hx) a ha
      obtain ⟨fb, b1, _⟩ := TreeOk.between n _ _ y.2 (hkids j y hy) b hb
      obtain ⟨fy, hyb⟩ := b1 y.1 (by rw [if_neg (by omega)])
      have hnl : i + 1 < p.items.length := by omega
      have hnx : p.items[i + 1]? = some (p.items[i + 1]) := List.getElem?_eq_getElem hnl
      obtain ⟨fn, han⟩ := a2 (p.items[i + 1]).1 (by rw [hnx])
      have hny : ix.cmp (p.items[i + 1]).1 y.1 ≤ 0 := by
        have e1 := Page.keyG_get hnx
        have e2 := Page.keyG_get hy
        rw [← e1, ← e2]
        rcases Nat.lt_or_ge (i + 1) j with h1 | h1
        · exact Int.le_of_lt (okp.keyG_lt h1 hjl (Or.inr (by omega)))
        · have : i + 1 = j := by omega
          rw [this, Idx.cmp, cmpRows_self]
          exact Int.le_refl _
      exact Idx.cmp_lt_le fa fn fb han (Idx.cmp_le_trans fn fy fb hny hyb)

/-! ## The place of a key -/

/-- The position found: rows above the key come before it, the others follow, and the row at the
position is on the leaf, or no row is equal to the key. -/
structure AtKey (ix : Idx) (k : SKey) (rows : List Row) (q : Pos) : Prop where
  le : q.before + q.off ≤ rows.length
  low : ∀ r ∈ rows.take (q.before + q.off), 0 < ix.cmpKey k r
  high : ∀ r ∈ rows.drop (q.before + q.off), ix.cmpKey k r ≤ 0
  row : q.leaf[q.off]? = rows[q.before + q.off]? ∨
    (q.leaf[q.off]? = none ∧ ∀ r ∈ rows.drop (q.before + q.off), ix.cmpKey k r < 0)

/-- A descent that decides in each page as the regular search with some key near `k`. -/
theorem descend_near {ix : Idx} {fp : Bool} {k : SKey} (hk : ix.RowKey k)
    (C : (n : Nat) → Tree n → Prop)
    (hC : ∀ n (p : Page (Tree n)), C (n + 1) p → ∀ it ∈ p.items, C n it.2)
    (hleaf : ∀ p : Page Unit, C 0 p → PageOk ix true p → goesRight ix k p = false →
      ∃ kk, ix.RowKey kk ∧ ix.Near k kk ∧ findItem ix fp k p = .at (leafLoc ix k kk p))
    (hint : ∀ n (p : Page (Tree n)), C (n + 1) p → PageOk ix false p → goesRight ix k p = false →
      ∃ kk, ix.RowKey kk ∧ ix.Near k kk ∧ goesRight ix kk p = false ∧
        findDownlink ix fp k p = slowDownlink ix kk p) :
    ∀ (n : Nat) (lo hi : Option Row) (t : Tree n), C n t → TreeOk ix n lo hi t →
      (∀ h, hi = some h → ix.cmpKey k h < 0) →
      ∃ q, descend ix fp k n t = some q ∧ AtKey ix k (Tree.rows n t) q := by
  intro n
  induction n with
  | zero =>
    intro lo hi p hCp ok hhi
    obtain ⟨okp, e, _⟩ := ok
    have hg := Page.goesRight_hi okp hk (by rw [e]; exact hhi)
    obtain ⟨kk, hkk, hnear, hfind⟩ := hleaf p hCp okp hg
    obtain ⟨l1, l2, l3⟩ := leafSearch_spec okp hk hkk hnear
    refine ⟨⟨0, p.items.map (·.1), p.offset (leafLoc ix k kk p)⟩, ?_, ?_⟩
    · simp only [descend]
      rw [hfind]
    · have hkey : ∀ i r, (p.items.map (·.1))[i]? = some r → p.keyG i = r := by
        intro i r hr
        unfold Page.keyG
        rw [List.getD_eq_getElem?_getD, hr]
        rfl
      refine ⟨?_, ?_, ?_, ?_⟩
      · simpa [Tree.rows] using l1
      · intro r hr
        simp only [Tree.rows, Nat.zero_add] at hr
        obtain ⟨i, hi'⟩ := List.mem_iff_getElem?.1 hr
        rw [List.getElem?_take] at hi'
        by_cases hlt : i < p.offset (leafLoc ix k kk p)
        · rw [if_pos hlt] at hi'
          rw [← hkey i r hi']
          exact l2 i hlt
        · rw [if_neg hlt] at hi'; cases hi'
      · intro r hr
        simp only [Tree.rows, Nat.zero_add] at hr
        obtain ⟨i, hi'⟩ := List.mem_iff_getElem?.1 hr
        rw [List.getElem?_drop] at hi'
        rw [← hkey _ r hi']
        have := (List.getElem?_eq_some_iff.1 hi').1
        exact l3 _ (by omega) (by simpa using this)
      · left
        simp [Tree.rows]
  | succ n ih =>
    intro lo hi p hCp ok hhi
    obtain ⟨okp, e, hlo, hkids⟩ := ok
    have hg := Page.goesRight_hi okp hk (by rw [e]; exact hhi)
    obtain ⟨kk, hkk, hnear, hgk, hfind⟩ := hint n p hCp okp hg
    obtain ⟨l, d1, d2, d3, d4⟩ := slowDownlink_spec okp hkk.ok hgk
    have hit : p.items[p.offset l]? = some (p.items[p.offset l]) := List.getElem?_eq_getElem d2
    generalize hgo : p.offset l = g at *
    generalize hitx : p.items[g] = it at *
    have hnext : ∀ h, (match p.items[g + 1]? with
        | some nx => some nx.1
        | none => hi) = some h → ix.cmpKey k h < 0 := by
      intro h hh
      cases hnx : p.items[g + 1]? with
      | none => rw [hnx] at hh; exact hhi h hh
      | some nx =>
        rw [hnx] at hh
        have hh' : nx.1 = h := Option.some.inj hh
        have hnl : g + 1 < p.items.length := (List.getElem?_eq_some_iff.1 hnx).1
        have := d4 (g + 1) (by omega) hnl
        rw [Page.keyG_get hnx, hh', Idx.left_iff hkk] at this
        refine (hnear h ?_).2 (by omega)
        have hf := okp.fullG hnl (Or.inr (by omega))
        rw [Page.keyG_get hnx, hh'] at hf
        exact hf
    obtain ⟨q, hq1, hq2⟩ := ih _ _ it.2 (hC n p hCp it (List.mem_of_getElem? hit))
      (hkids g it hit) hnext
    -- the rows before and after the child
    have hsplit : p.items = p.items.take g ++ it :: p.items.drop (g + 1) := by
      rw [← hitx]
      rw [List.getElem_cons_drop, List.take_append_drop]
    have hrows : Tree.rows (n + 1) p =
        (p.items.take g).flatMap (fun it => Tree.rows n it.2) ++
        (Tree.rows n it.2 ++ (p.items.drop (g + 1)).flatMap (fun it => Tree.rows n it.2)) := by
      show p.items.flatMap (fun it => Tree.rows n it.2) = _
      conv => lhs; rw [hsplit]
      rw [List.flatMap_append, List.flatMap_cons]
    have hbefore : ∀ r ∈ (p.items.take g).flatMap (fun it => Tree.rows n it.2),
        0 < ix.cmpKey k r := by
      intro r hr
      obtain ⟨x, hx, hr⟩ := List.mem_flatMap.1 hr
      obtain ⟨i, hi'⟩ := List.mem_iff_getElem?.1 hx
      rw [List.getElem?_take] at hi'
      by_cases hlt : i < g
      · rw [if_pos hlt] at hi'
        obtain ⟨fr, _, b2⟩ := TreeOk.between n _ _ x.2 (hkids i x hi') r hr
        have hnl : i + 1 < p.items.length := by omega
        have hnx : p.items[i + 1]? = some (p.items[i + 1]) := List.getElem?_eq_getElem hnl
        obtain ⟨fn, hrn⟩ := b2 (p.items[i + 1]).1 (by rw [hnx])
        have := d3 (i + 1) (by omega) (by omega)
        rw [Page.keyG_get hnx, Idx.left_iff hkk] at this
        exact (hnear r fr).1 (Idx.cmpKey_strict hkk fr fn hrn this)
      · rw [if_neg hlt] at hi'; cases hi'
    have hafter : ∀ r ∈ (p.items.drop (g + 1)).flatMap (fun it => Tree.rows n it.2),
        ix.cmpKey k r < 0 := by
      intro r hr
      obtain ⟨x, hx, hr⟩ := List.mem_flatMap.1 hr
      obtain ⟨i, hi'⟩ := List.mem_iff_getElem?.1 hx
      rw [List.getElem?_drop] at hi'
      obtain ⟨fr, b1, _⟩ := TreeOk.between n _ _ x.2 (hkids _ x hi') r hr
      obtain ⟨fx, hxr⟩ := b1 x.1 (by rw [if_neg (by omega)])
      have hxl := (List.getElem?_eq_some_iff.1 hi').1
      have := d4 (g + 1 + i) (by omega) hxl
      rw [Page.keyG_get hi', Idx.left_iff hkk] at this
      have ha := (Idx.cmpKey_anti hkk.ok fx fr hxr).1
      rcases Int.lt_or_le (ix.cmpKey kk r) 0 with h5 | h5
      · exact (hnear r fr).2 h5
      · exact absurd (ha h5) this
    obtain ⟨a1, a2, a3, a4⟩ := hq2
    generalize hA : (p.items.take g).flatMap (fun it => Tree.rows n it.2) = A at *
    generalize hC : (p.items.drop (g + 1)).flatMap (fun it => Tree.rows n it.2) = C at *
    refine ⟨⟨A.length + q.before, q.leaf, q.off⟩, ?_, ?_⟩
    · simp only [descend]
      rw [hfind, d1]
      simp only [hgo, hit, hq1, Option.map_some, hA]
    · rw [hrows]
      have hs1 : A.length + q.before + q.off = A.length + (q.before + q.off) := by omega
      refine ⟨?_, ?_, ?_, ?_⟩
      · simp only [List.length_append]; omega
      · intro r hr
        simp only [hs1, List.take_length_add_append] at hr
        rcases List.mem_append.1 hr with h1 | h1
        · exact hbefore r h1
        · rw [List.take_append_of_le_length a1] at h1
          exact a2 r h1
      · intro r hr
        simp only [hs1, List.drop_length_add_append] at hr
        rw [List.drop_append_of_le_length a1] at hr
        rcases List.mem_append.1 hr with h1 | h1
        · exact a3 r h1
        · exact Int.le_of_lt (hafter r h1)
      · simp only [hs1, List.drop_length_add_append]
        rw [List.getElem?_append_right (by omega), Nat.add_sub_cancel_left,
          List.drop_append_of_le_length a1]
        rcases a4 with h1 | ⟨h1, h2⟩
        · by_cases hb : q.before + q.off < (Tree.rows n it.2).length
          · left
            rw [h1, List.getElem?_append_left hb]
          · right
            refine ⟨by rw [h1]; exact List.getElem?_eq_none (by omega), ?_⟩
            intro r hr
            rw [List.drop_eq_nil_of_le (by omega), List.nil_append] at hr
            exact hafter r hr
        · right
          refine ⟨h1, ?_⟩
          intro r hr
          rcases List.mem_append.1 hr with h3 | h3
          · exact h2 r h3
          · exact hafter r h3

theorem descend_at {ix : Idx} {k : SKey} (hk : ix.RowKey k) (n : Nat) (lo hi : Option Row)
    (t : Tree n) (ok : TreeOk ix n lo hi t) (hhi : ∀ h, hi = some h → ix.cmpKey k h < 0) :
    ∃ q, descend ix false k n t = some q ∧ AtKey ix k (Tree.rows n t) q :=
  descend_near hk (fun _ _ => True) (fun _ _ _ _ _ => trivial)
    (fun p _ _ hg => ⟨k, hk, Idx.Near.self, findItem_slow hk hg⟩)
    (fun n p _ _ hg => ⟨k, hk, Idx.Near.self, hg, by
      simp only [findDownlink, Bool.false_eq_true, if_false]⟩) n lo hi t trivial ok hhi

/-- A look-up finds the row equal to the key, and says when there is none. -/
theorem lookup_slow {ix : Idx} {k : SKey} (hk : ix.RowKey k) {n : Nat} {t : Tree n}
    (ok : TreeWf ix n t) :
    ∃ res, lookup ix false k n t = some res ∧
      (∀ r, res = some r → r ∈ Tree.rows n t ∧ ix.cmpKey k r = 0) ∧
      (res = none → ∀ r ∈ Tree.rows n t, ix.cmpKey k r ≠ 0) := by
  obtain ⟨q, hq, a1, a2, a3, a4⟩ := descend_at hk n none none t ok (fun h hh => by cases hh)
  unfold lookup
  rw [hq]
  refine ⟨_, rfl, ?_, ?_⟩
  · intro r hr
    dsimp only at hr
    cases hl : q.leaf[q.off]? with
    | none => rw [hl] at hr; cases hr
    | some r' =>
      rw [hl] at hr
      dsimp only at hr
      by_cases hz : ix.cmpKey k r' = 0
      · rw [if_pos hz] at hr
        have hr' := Option.some.inj hr
        subst hr'
        rcases a4 with h1 | ⟨h1, _⟩
        · rw [hl] at h1
          exact ⟨List.mem_of_getElem? h1.symm, hz⟩
        · rw [hl] at h1; cases h1
      · rw [if_neg hz] at hr; cases hr
  · intro hres r hr hz
    dsimp only at hres
    -- all rows but the one at the position differ
    have hsrt := TreeOk.sorted n _ _ t ok
    have hmem : r ∈ (Tree.rows n t).drop (q.before + q.off) := by
      have : r ∈ (Tree.rows n t).take (q.before + q.off) ++ (Tree.rows n t).drop (q.before + q.off) := by
        rw [List.take_append_drop]; exact hr
      rcases List.mem_append.1 this with h1 | h1
      · have := a2 r h1; omega
      · exact h1
    rcases a4 with h1 | ⟨_, h2⟩
    · obtain ⟨i, hi⟩ := List.mem_iff_getElem?.1 hmem
      rw [List.getElem?_drop] at hi
      have hil := (List.getElem?_eq_some_iff.1 hi).1
      have h0 : q.before + q.off < (Tree.rows n t).length := by omega
      rw [List.getElem?_eq_getElem h0] at h1
      rw [h1] at hres
      dsimp only at hres
      by_cases hz0 : ix.cmpKey k ((Tree.rows n t)[q.before + q.off]) = 0
      · rw [if_pos hz0] at hres; cases hres
      · rcases Nat.eq_zero_or_pos i with hi0 | hi0
        · subst hi0
          rw [Nat.add_zero, List.getElem?_eq_getElem h0] at hi
          have := Option.some.inj hi
          rw [this] at hz0
          exact hz0 hz
        · -- the row at the position is before `r`, hence above the key
          have hlt : ix.cmp ((Tree.rows n t)[q.before + q.off]) r < 0 := by
            have := List.pairwise_iff_getElem.1 hsrt (q.before + q.off) (q.before + q.off + i) h0
              hil (by omega)
            rw [List.getElem?_eq_getElem hil] at hi
            rw [Option.some.inj hi] at this
            exact this
          have f0 := (TreeOk.between n _ _ t ok _ (List.getElem_mem h0)).1
          have fr := (TreeOk.between n _ _ t ok r hr).1
          have hpos := Idx.cmpKey_strict hk f0 fr hlt (by omega)
          have hle := a3 ((Tree.rows n t)[q.before + q.off]) (by
            rw [List.drop_eq_getElem_cons h0]
            exact List.mem_cons_self ..)
          omega
    · have := h2 r hmem; omega

end Verif.Fastpath
