import Verif.Fastpath.Scan

/-!
# Searches for the ends of a tree, and checking that given trees are well formed
-/

namespace Verif.Fastpath

/-! ## The first and the last page -/

theorem fastMeta_cols {ix : Idx} (hix : ix.Wf) {k : SKey} {m : Meta} (hm : ix.fastMeta k = some m)
    {c : FCol} (hg : ∀ fs, getKeys fs k = some (fs.map fun _ => c)) :
    ∃ a cs, m.cols = (c, a) :: cs ∧ m.inclusive = k.isHikey := by
  unfold Idx.fastMeta at hm
  by_cases hb : 4 ≤ ix.fields.length ∨ ix.fixedSpec = false
  · rw [if_pos hb] at hm; cases hm
  · rw [if_neg hb] at hm
    dsimp only at hm
    by_cases ho : (ix.fields.take (ix.numKeys k)).all (·.opOk) = true
    · rw [if_pos ho, hg] at hm
      simp only [Option.map_some, Option.some.injEq] at hm
      subst hm
      have hpos : 0 < ix.numKeys k := by
        obtain ⟨_, h1, h2⟩ := hix
        unfold Idx.numKeys
        cases k <;> simp only [] <;> first | exact h2 | (split <;> omega)
      have hfl : 0 < ix.fields.length := by obtain ⟨_, h1, h2⟩ := hix; omega
      cases hf : ix.fields with
      | nil => rw [hf] at hfl; simp at hfl
      | cons f fs =>
        obtain ⟨n, hn⟩ : ∃ n, ix.numKeys k = n + 1 := ⟨ix.numKeys k - 1, by omega⟩
        rw [hn, List.take_succ_cons]
        simp only [List.map_cons, List.zip_cons_cons]
        exact ⟨f.asc, _, rfl, trivial⟩
    · rw [if_neg ho] at hm; cases hm

theorem narrow_end (arr : Nat → Row) : ∀ (cs : List (FCol × Bool)) (j a : Nat),
    narrow arr cs j a a = (a, a) := by
  intro cs j a
  cases cs with
  | nil => rfl
  | cons c cs => obtain ⟨c, b⟩ := c; simp [narrow]

theorem fastPick_first {m : Meta} {a : Bool} {cs : List (FCol × Bool)}
    (h : m.cols = (.first, a) :: cs) (hi : m.inclusive = false) (arr : Nat → Row) (count : Nat) :
    fastPick m arr count = 0 := by
  unfold fastPick
  rw [h, hi]
  by_cases hc : 0 < count
  · simp [narrow, hc, narrow_end]
  · have : count = 0 := by omega
    subst this
    simp [narrow]

theorem fastPick_last {m : Meta} {a : Bool} {cs : List (FCol × Bool)}
    (h : m.cols = (.last, a) :: cs) (arr : Nat → Row) (count : Nat) :
    fastPick m arr count = count := by
  unfold fastPick
  rw [h]
  by_cases hc : 0 < count
  · simp [narrow, hc, narrow_end]
  · have : count = 0 := by omega
    subst this
    simp [narrow]

theorem findDownlink_none {α} {ix : Idx} (hix : ix.Wf) (p : Page α) :
    findDownlink ix true .none p = findDownlink ix false .none p := by
  unfold findDownlink
  simp only [if_true, Bool.false_eq_true, if_false]
  cases hm : ix.fastMeta .none with
  | none => rfl
  | some m =>
    dsimp only
    obtain ⟨a, cs, h1, h2⟩ := fastMeta_cols hix hm (c := .first) (fun fs => rfl)
    have hs : slowDownlink ix .none p = .at ⟨0, 0⟩ := by simp [slowDownlink, goesRight]
    rw [hs]
    cases hl : fastDownlink m p with
    | none => rfl
    | some l =>
      dsimp only
      unfold fastDownlink fastChunk at hl
      cases hf : p.fixed with
      | false => rw [hf] at hl; simp at hl
      | true =>
        rw [hf] at hl
        simp only [if_true, fastPick_first h1 h2] at hl
        by_cases hc : (if p.rightmost = true then p.chunks.length - 1 else p.chunks.length) ≤ 0
        · rw [if_pos hc] at hl; cases hl
        · rw [if_neg hc] at hl
          dsimp only at hl
          cases hff : (p.chunks.getD 0 ⟨false, []⟩).fixed with
          | false => rw [hff] at hl; simp at hl
          | true =>
            rw [hff] at hl
            simp only [if_true, Option.some.injEq] at hl
            rw [hl]

theorem findDownlink_rightmost {α} {ix : Idx} (hix : ix.Wf) (p : Page α) :
    findDownlink ix true .rightmost p = findDownlink ix false .rightmost p := by
  unfold findDownlink
  simp only [if_true, Bool.false_eq_true, if_false]
  cases hm : ix.fastMeta .rightmost with
  | none => rfl
  | some m =>
    dsimp only
    obtain ⟨a, cs, h1, h2⟩ := fastMeta_cols hix hm (c := .last) (fun fs => rfl)
    have hl : fastDownlink m p = none := by
      unfold fastDownlink fastChunk
      cases hf : p.fixed with
      | false => simp
      | true =>
        simp only [if_true, fastPick_last h1]
        rw [if_pos (Nat.le_refl _)]
    rw [hl]

/-! ## Checking pages and trees -/

/-- A check for `PageOk`. -/
def pageCheck {α} (ix : Idx) (leaf : Bool) (p : Page α) : Bool :=
  decide (p.chunks.length ≠ 0) &&
  decide (p.hikeys.length = p.chunks.length - (if p.rightmost then 1 else 0)) &&
  ((List.range p.hikeys.length).all fun c =>
    decide ((p.hikey c).length = ix.fields.length) &&
    (!p.fixed || setRow ix.fields (p.hikey c)) &&
    ((List.range p.hikeys.length).all fun d =>
      decide (d ≤ c) || decide (ix.cmp (p.hikey c) (p.hikey d) < 0))) &&
  ((List.range p.chunks.length).all fun c =>
    (leaf || decide (0 < (p.itemsAt c).length)) &&
    ((List.range (p.itemsAt c).length).all fun i =>
      (decide (c = 0) || decide (p.hikeys.length ≤ c - 1) ||
        decide (ix.cmp (p.hikey (c - 1)) (p.key c i) ≤ 0)) &&
      (!(leaf || decide (0 < c + i)) ||
        (decide ((p.key c i).length = ix.fields.length) &&
         ((List.range (p.itemsAt c).length).all fun j =>
           decide (j ≤ i) || decide (ix.cmp (p.key c i) (p.key c j) < 0)) &&
         (decide (p.hikeys.length ≤ c) || decide (ix.cmp (p.key c i) (p.hikey c) < 0)) &&
         (!(p.chunks.getD c ⟨false, []⟩).fixed || setRow ix.fields (p.key c i))))))

theorem pageCheck_ok {α} {ix : Idx} {leaf : Bool} {p : Page α} (h : pageCheck ix leaf p = true) :
    PageOk ix leaf p := by
  unfold pageCheck at h
  simp only [Bool.and_eq_true, List.all_eq_true, List.mem_range, Bool.or_eq_true,
    decide_eq_true_eq, Bool.not_eq_true'] at h
  obtain ⟨⟨⟨h1, h2⟩, h3⟩, h4⟩ := h
  have itm : ∀ c i, i < (p.itemsAt c).length → (leaf = true ∨ 0 < c + i) → _ := fun c i hi hl =>
    ((h4 c (p.itemsAt_lt hi)).2 i hi).2.resolve_left (by
      intro hh
      rcases hl with hl | hl
      · rw [hl] at hh; simp at hh
      · simp only [Bool.or_eq_false_iff, decide_eq_false_iff_not] at hh
        exact hh.2 hl)
  refine ⟨fun hh => h1 (by rw [hh]; rfl), h2, fun c hc => (h3 c hc).1.1, ?_, ?_, ?_, ?_, ?_, ?_, ?_, ?_⟩
  · intro c d hcd hd
    exact ((h3 c (by omega)).2 d hd).resolve_left (by omega)
  · intro c i hi hl
    exact (itm c i hi hl).1.1.1
  · intro c i j hij hj hl
    exact ((itm c i (by omega) hl).1.1.2 j hj).resolve_left (by omega)
  · intro c i hi hc hl
    exact (itm c i hi hl).1.2.resolve_left (by omega)
  · intro c i hi hc
    have := ((h4 (c + 1) (p.itemsAt_lt hi)).2 i hi).1
    rw [Nat.add_sub_cancel] at this
    rcases this with (h5 | h5) | h5
    · omega
    · omega
    · exact h5
  · intro hl c hc
    have := (h4 c hc).1
    rw [hl] at this
    simpa using this
  · intro hf c hc
    have := (h3 c hc).1.2
    rw [hf] at this
    simpa using this
  · intro c i hf hi hl
    have := (itm c i hi hl).2
    rw [hf] at this
    simpa using this

/-- A check for `PageNoNan`. -/
def pageNanCheck {α} (leaf : Bool) (p : Page α) : Bool :=
  ((List.range p.hikeys.length).all fun c => noNan (p.hikey c)) &&
  ((List.range p.chunks.length).all fun c => (List.range (p.itemsAt c).length).all fun i =>
    !(leaf || decide (0 < c + i)) || noNan (p.key c i))

theorem pageNanCheck_ok {α} {leaf : Bool} {p : Page α} (h : pageNanCheck leaf p = true) :
    PageNoNan leaf p := by
  unfold pageNanCheck at h
  simp only [Bool.and_eq_true, List.all_eq_true, List.mem_range, Bool.or_eq_true,
    Bool.not_eq_true'] at h
  refine ⟨h.1, fun c i hi hl => (h.2 c (p.itemsAt_lt hi) i hi).resolve_left ?_⟩
  intro hh
  rcases hl with hl | hl
  · rw [hl] at hh; simp at hh
  · simp only [Bool.or_eq_false_iff, decide_eq_false_iff_not] at hh
    exact hh.2 hl

/-- A check of the lower end. -/
def loCheck (ix : Idx) (lo : Option Row) (keys : List Row) : Bool :=
  match lo with
  | none => true
  | some l => decide (l.length = ix.fields.length) && keys.all fun k => decide (ix.cmp l k ≤ 0)

/-- A check for `TreeOk`. -/
def treeCheck (ix : Idx) : (n : Nat) → Option Row → Option Row → Tree n → Bool
  | 0, lo, hi, (p : Page Unit) =>
    pageCheck ix true p && decide (p.hi = hi) && loCheck ix lo (p.items.map (·.1))
  | n + 1, lo, hi, (p : Page (Tree n)) =>
    pageCheck ix false p && decide (p.hi = hi) &&
      loCheck ix lo ((p.items.map (·.1)).drop 1) &&
      (List.range p.items.length).all fun g =>
        match p.items[g]? with
        | some it =>
          treeCheck ix n (if g = 0 then lo else some it.1)
            (match p.items[g + 1]? with
             | some nx => some nx.1
             | none => hi) it.2
        | none => true

theorem treeCheck_ok {ix : Idx} : ∀ (n : Nat) (lo hi : Option Row) (t : Tree n),
    treeCheck ix n lo hi t = true → TreeOk ix n lo hi t := by
  intro n
  induction n with
  | zero =>
    intro lo hi p h
    simp only [treeCheck, Bool.and_eq_true, decide_eq_true_eq] at h
    refine ⟨pageCheck_ok h.1.1, h.1.2, ?_⟩
    intro l hl
    rw [hl] at h
    simp only [loCheck, Bool.and_eq_true, decide_eq_true_eq, List.all_eq_true] at h
    exact ⟨h.2.1, fun it hit => h.2.2 it.1 (List.mem_map.2 ⟨it, hit, rfl⟩)⟩
  | succ n ih =>
    intro lo hi p h
    simp only [treeCheck, Bool.and_eq_true, decide_eq_true_eq, List.all_eq_true, List.mem_range] at h
    obtain ⟨⟨⟨h1, h2⟩, h3⟩, h4⟩ := h
    refine ⟨pageCheck_ok h1, h2, ?_, ?_⟩
    · intro l hl
      rw [hl] at h3
      simp only [loCheck, Bool.and_eq_true, decide_eq_true_eq, List.all_eq_true] at h3
      refine ⟨h3.1, fun g g0 hg => h3.2 _ ?_⟩
      obtain ⟨e, rfl⟩ : ∃ e, g = e + 1 := ⟨g - 1, by omega⟩
      unfold Page.keyG
      have hlt : e + 1 < (p.items.map (·.1)).length := by simpa using hg
      rw [List.getD_eq_getElem?_getD, List.getElem?_eq_getElem hlt, Option.getD_some,
        List.mem_iff_getElem?]
      refine ⟨e, ?_⟩
      rw [List.getElem?_drop, Nat.add_comm 1 e, List.getElem?_eq_getElem hlt]
    · intro g it hg
      have hgl := (List.getElem?_eq_some_iff.1 hg).1
      have := h4 g hgl
      rw [hg] at this
      exact ih _ _ it.2 this

/-- A check for `TreeNoNan`. -/
def nanCheck : (n : Nat) → Tree n → Bool
  | 0, (p : Page Unit) => pageNanCheck true p
  | n + 1, (p : Page (Tree n)) => pageNanCheck false p && p.items.all fun it => nanCheck n it.2

theorem nanCheck_ok : ∀ (n : Nat) (t : Tree n), nanCheck n t = true → TreeNoNan n t := by
  intro n
  induction n with
  | zero => intro p h; exact pageNanCheck_ok h
  | succ n ih =>
    intro p h
    simp only [nanCheck, Bool.and_eq_true, List.all_eq_true] at h
    exact ⟨pageNanCheck_ok h.1, fun it hit => ih it.2 (h.2 it hit)⟩

/-- A check for `CondsOk`. -/
def condsCheck (ix : Idx) (cs : List SCond) : Bool :=
  cs.all fun c => match ix.cols[c.col]? with
    | some f => !f.ignored
    | none => false

theorem condsCheck_ok {ix : Idx} {cs : List SCond} (h : condsCheck ix cs = true) :
    CondsOk ix cs := by
  intro c hc
  have := List.all_eq_true.1 h c hc
  cases hf : ix.cols[c.col]? with
  | none => rw [hf] at this; cases this
  | some f =>
    rw [hf] at this
    exact ⟨f, rfl, by simpa using this⟩

end Verif.Fastpath
