import Verif.PageSplit.BuildModel
import Verif.PageSplit.Put

/-! # Build of an index: the pages in memory and the tree below them -/

namespace Verif.PageSplit

/-- The page of a level. -/
def bpage (leaf : Bool) (l : List Item) : Page := { Page.empty leaf with chunks := [l] }

theorem bpage_items (leaf : Bool) (l : List Item) : (bpage leaf l).items = l := by
  simp [bpage, Page.items]

theorem bpage_dataSize (leaf : Bool) (l : List Item) :
    (bpage leaf l).dataSize = hikeysEnd leaf + chunkSize l := by
  simp [bpage, Page.dataSize, Page.empty]

/-- What the items of a level are like. -/
structure LOk (leaf : Bool) (l : List Item) : Prop where
  items : ∀ x ∈ l, ItemOk leaf x
  inner : InnerOk leaf l
  room : hikeysEnd leaf + chunkSize l ≤ blck
  rows : leaf = true → ∀ x ∈ l, x = rowItem x.row.tup
  first : leaf = false → ∀ x ∈ l.head?, x.size = 8

theorem LOk.nil (leaf : Bool) : LOk leaf [] :=
  ⟨by simp, fun _ => by simp [keyed], by cases leaf <;> decide, by simp, by simp⟩

theorem keep_rows (l : List Item) (h : ∀ x ∈ l, x = rowItem x.row.tup) :
    keep true (fun _ => none) none l = l := by
  induction l with
  | nil => rfl
  | cons x l ih =>
    rw [keep_cons, ih (fun y hy => h y (by simp [hy]))]
    have hx := h x (by simp)
    have h1 : x.row.droppable (fun _ => none) none = false := by
      rw [hx]; rfl
    have h2 : x.slim (fun _ => none) = x := by
      rw [hx]; rfl
    rw [h1, h2]
    rfl

theorem build_items {leaf : Bool} {l : List Item} (h : LOk leaf l) (it : Item) :
    (makeSplitItems (updateMaxKey (bpage leaf l)) false (fun _ => none) none it l.length).items =
      l ++ [it] := by
  have h1 : (updateMaxKey (bpage leaf l)).items = l := bpage_items leaf l
  have := makeLoop_eq leaf false (fun _ => none) none it l 0 l.length (Nat.le_refl _)
    (fun h => by cases h)
  unfold makeSplitItems
  dsimp only
  rw [h1]
  rw [Nat.zero_add] at this
  show makeLoop leaf false _ _ _ _ _ _ = _
  rw [this]
  have h2 : keep leaf (fun _ => none) none l = l := by
    cases leaf with
    | true => exact keep_rows l (h.rows rfl)
    | false => rfl
  have h3 : after l l.length false = [] := by simp [after]
  simp [h2]
  cases leaf <;> rfl

theorem findLoop_ge (ss : List Nat) (t : Nat) (pick : Int → Int → Bool) (f : Nat) :
    ∀ (l r : Int) (mn mx k : Nat), findLoop ss t pick f l r mn mx = some k → mn ≤ k := by
  induction f with
  | zero => intro l r mn mx k h; simp [findLoop] at h
  | succ f ih =>
    intro l r mn mx k h
    unfold findLoop at h
    by_cases h1 : mn = mx
    · rw [if_pos h1] at h; simp at h; omega
    · rw [if_neg h1] at h
      by_cases h2 : r ≤ 0 ∨ (l > 0 ∧ (if t = 0 then pick l r else decide (mn < t)) = true)
      · rw [if_pos h2] at h
        by_cases h3 : l ≤ 0
        · rw [if_pos h3] at h; cases h
        · rw [if_neg h3] at h
          dsimp only at h
          split at h
          · exact ih _ _ _ _ _ h
          · have := ih _ _ _ _ _ h; omega
      · rw [if_neg h2] at h
        by_cases h3 : r ≤ 0
        · rw [if_pos h3] at h; cases h
        · rw [if_neg h3] at h
          dsimp only at h
          split at h
          · exact ih _ _ _ _ _ h
          · exact ih _ _ _ _ _ h

/-- The split of a page of a level: the left page is written. -/
theorem build_split (cut : Nat → Bool) {leaf : Bool} {l : List Item} (h : LOk leaf l) {it : Item}
    (hi : ItemOk leaf it) (hin : leaf = false → itemHdr false + ma it.row.tup.klen ≤ it.size)
    (hrow : leaf = true → it = rowItem it.row.tup) (hne : l ≠ [])
    (h2 : leaf = false → 2 ≤ l.length) :
    ∃ k x xs left,
      findLocation (makeSplitItems (updateMaxKey (bpage leaf l)) false (fun _ => none) none it
        l.length) l.length (fun _ _ => true) = some k ∧
      (l ++ [it]).drop k = x :: xs ∧ ¬ hikeysEnd leaf + chunkSize (x :: xs) > blck ∧
      reorg cut leaf (some x.row.tup) ((l ++ [it]).take k) = some left ∧
      left.items = (l ++ [it]).take k ∧ left.hi = some x.row.tup ∧ x.row.tup.klen ≤ maxTup ∧
      0 < k ∧ k ≤ l.length ∧ (leaf = false → 2 ≤ k) ∧ LOk leaf (cutFirst leaf (x :: xs)) := by
  have hitems := build_items h it
  generalize hs : makeSplitItems (updateMaxKey (bpage leaf l)) false (fun _ => none) none it
    l.length = s at *
  have hleaf : s.leaf = leaf := by rw [← hs]; rfl
  have hhik : s.hikeySize = 0 := by rw [← hs]; rfl
  have hmx : s.maxKeyLen = max (ma ((l.map (fun it =>
      if leaf then it.row.tup.klen else it.size - itemHdr false)).foldl max 0)) it.row.tup.klen := by
    rw [← hs]
    have e1 : (makeSplitItems (updateMaxKey (bpage leaf l)) false (fun _ => none) none it
      l.length).maxKeyLen = max (ma (((bpage leaf l).items.map (fun it =>
        if leaf then it.row.tup.klen else it.size - itemHdr false)).foldl max 0))
          it.row.tup.klen := rfl
    rw [e1, bpage_items]
  have hfold : (l.map (fun it => if leaf then it.row.tup.klen else it.size -
      itemHdr false)).foldl max 0 ≤ maxTup := by
    apply foldl_max_le
    · exact Nat.zero_le _
    · intro v hv
      obtain ⟨y, hy, rfl⟩ := List.mem_map.1 hv
      have := h.items y hy
      cases leaf with
      | true => exact this.key
      | false => have := this.hi; show y.size - itemHdr false ≤ _; omega
  have hmax : s.maxKeyLen ≤ maxTup := by
    have h1 := le_of_ma hfold (by decide)
    have h2 := hi.key
    rw [hmx]; omega
  have hall : ∀ x ∈ s.items, ItemOk leaf x := by
    rw [hitems]
    intro x hx
    rcases List.mem_append.1 hx with hx | hx
    · exact h.items x hx
    · rw [List.mem_singleton.1 hx]; exact hi
  have hlen : s.items.length = l.length + 1 := by rw [hitems]; simp
  have hl0 : 0 < l.length := List.length_pos_iff.2 hne
  have he := hikeysEnd_le leaf
  have hroom := h.room
  have hexs : ∃ k, ValidSplit s k := by
    refine split_exists s (fun x hx => (hall x hx).le) hmax (by omega) (by omega) ?_
    have h1 := hi.le
    have h2 : hikeysEnd leaf = 256 ∨ hikeysEnd leaf = 512 := by cases leaf <;> simp [hikeysEnd]
    rw [hlen, hleaf, hhik, hitems, sizes_append, sizes_cons, sizes_nil, Nat.add_sub_cancel]
    unfold chunkSize at hroom
    unfold hdrSize
    omega
  have hf := findLocation_spec s (fun x hx => (hall x hx).pos) l.length (fun _ _ => true)
  cases hloc : findLocation s l.length (fun _ _ => true) with
  | none => rw [hloc] at hf; exact absurd hexs hf
  | some k =>
    rw [hloc] at hf
    obtain ⟨hk0, hkn, hL, hR⟩ := hf
    rw [hitems] at hL hR
    rw [hlen] at hkn
    have hk2 : leaf = false → 2 ≤ k := by
      intro hlf
      have hl2 := h2 hlf
      have hfi := h.first hlf
      obtain ⟨y, z, l', hyl⟩ : ∃ y z l', l = y :: z :: l' := by
        match l, hl2 with
        | y :: z :: l', _ => exact ⟨y, z, l', rfl⟩
      have hy : y.size = 8 := hfi y (by rw [hyl]; simp)
      have hz := (h.items z (by rw [hyl]; simp)).hi
      rw [hlf] at hz
      unfold findLocation at hloc
      dsimp only at hloc
      rw [List.length_map, hlen, if_neg (by omega)] at hloc
      split at hloc
      · cases hloc
      · unfold findLoop at hloc
        rw [if_neg (by omega)] at hloc
        have g0 : (s.items.map (·.size)).getD 0 0 = 8 := by
          rw [hitems, hyl]; simpa using hy
        have g1 : (s.items.map (·.size)).getD 1 0 = z.size := by
          rw [hitems, hyl]; simp
        have he5 : max (hikeysEnd s.leaf) (hdrSize + s.maxKeyLen) ≤ 2752 := by
          unfold hdrSize maxTup at *; rw [hleaf]; omega
        have hz' : z.size ≤ 2696 := by unfold itemHdr maxTup at hz; simpa using hz
        rw [g0, g1] at hloc
        have ha1 : arr 1 = 8 := rfl
        have ha2 : arr (1 + 1) = 8 := rfl
        rw [ha1, ha2] at hloc
        have ht : ¬ l.length = 0 := by omega
        rw [if_pos (by
          refine .inr ⟨by unfold blck; omega, ?_⟩
          rw [if_neg ht]
          simp; omega)] at hloc
        rw [if_neg (by unfold blck; omega), if_neg (by unfold blck; omega)] at hloc
        exact findLoop_ge _ _ _ _ _ _ _ _ _ hloc
    cases hdrop : (l ++ [it]).drop k with
    | nil =>
      have := congrArg List.length hdrop
      rw [List.length_drop] at this
      simp at this
      omega
    | cons x xs =>
      have hmem : ∀ y ∈ x :: xs, y ∈ l ++ [it] := by
        intro y hy; rw [← hdrop] at hy; exact List.mem_of_mem_drop hy
      have hxl := congrArg List.length hdrop
      rw [List.length_drop] at hxl
      simp only [List.length_append, List.length_cons, List.length_nil] at hxl
      have hin' : ∀ y ∈ (l ++ [it]).tail, leaf = false → itemHdr false + ma y.row.tup.klen ≤
          y.size := by
        intro y hy hlf
        rw [List.tail_append_of_ne_nil hne] at hy
        rcases List.mem_append.1 hy with hy | hy
        · exact h.inner hlf y (by rw [hlf]; exact hy)
        · rw [List.mem_singleton.1 hy]; exact hin hlf
      have hdt : (l ++ [it]).drop k = (l ++ [it]).tail.drop (k - 1) := by
        rw [List.drop_tail]; congr 1; omega
      have hxt : ∀ y ∈ x :: xs, y ∈ (l ++ [it]).tail := by
        intro y hy
        rw [← hdrop, hdt] at hy
        exact List.mem_of_mem_drop hy
      have hxk : x.row.tup.klen ≤ maxTup := (hall x (by rw [hitems]; exact hmem x (by simp))).key
      have hxm : ma x.row.tup.klen ≤ ma s.maxKeyLen := by
        apply ma_mono
        rw [hmx]
        rcases List.mem_append.1 (hmem x (by simp)) with hx | hx
        · have h1 := mem_le_foldl_max (l.map (fun it =>
            if leaf then it.row.tup.klen else it.size - itemHdr false)) 0
            (List.mem_map.2 ⟨x, hx, rfl⟩)
          have h3 : x.row.tup.klen ≤ if leaf then x.row.tup.klen else x.size - itemHdr false := by
            cases leaf with
            | true => exact Nat.le_refl _
            | false =>
              have h4 := hin' x (hxt x (by simp)) rfl
              have h5 := ma_le x.row.tup.klen
              show _ ≤ x.size - itemHdr false
              omega
          refine Nat.le_trans ?_ (Nat.le_max_left _ _)
          refine Nat.le_trans ?_ (ma_le _)
          exact Nat.le_trans h3 h1
        · rw [List.mem_singleton.1 hx]; exact Nat.le_max_right _ _
      have hst8 : sizes ((l ++ [it]).take k) % 8 = 0 := sizes_dvd (fun y hy =>
        (hall y (by rw [hitems]; exact List.mem_of_mem_take hy)).dvd)
      have htl : ((l ++ [it]).take k).length = k := by
        rw [List.length_take]; simp; omega
      have hfit : max (hikeysEnd leaf) (hdrSize + hiSize (some x.row.tup)) +
          sizes ((l ++ [it]).take k) + arr ((l ++ [it]).take k).length ≤ blck := by
        rw [htl]
        have ha := arr_dvd k
        have hma : ma s.maxKeyLen < s.maxKeyLen + 8 := ma_lt _
        have hmd := ma_dvd s.maxKeyLen
        have he8 := hikeysEnd_dvd leaf
        rw [hleaf] at hL
        show max _ (hdrSize + ma x.row.tup.klen) + _ + _ ≤ _
        unfold hdrSize blck at *
        omega
      obtain ⟨left, g1, g2, g3, g4, g5⟩ := reorg_ok cut leaf (some x.row.tup)
        ((l ++ [it]).take k) (fun y hy => hall y (by rw [hitems]; exact List.mem_of_mem_take hy))
        (fun hlf y hy => hin' y (by
          rw [hlf] at hy
          have hy' : y ∈ ((l ++ [it]).take k).tail := hy
          have : ((l ++ [it]).take k).tail.Sublist (l ++ [it]).tail := (List.take_sublist _ _).tail
          exact this.subset hy') hlf)
        (fun t ht => by cases ht; exact hxk) hfit
      have hRroom : hikeysEnd leaf + chunkSize (x :: xs) ≤ blck := by
        unfold chunkSize
        rw [hleaf, hhik, hdrop, List.length_append, List.length_cons, List.length_nil] at hR
        rw [List.length_cons]
        rw [show l.length + (0 + 1) - k = xs.length + 1 by omega] at hR
        omega
      refine ⟨k, x, xs, left, rfl, hdrop, by omega, g1, g3, g4, hxk, hk0, by omega, hk2, ?_⟩
      have hxall : ∀ y ∈ x :: xs, ItemOk leaf y := fun y hy =>
        hall y (by rw [hitems]; exact hmem y hy)
      obtain ⟨hc1, hc2, hc3⟩ := cutFirst_ok hxall
      refine ⟨hc1, ?_, ?_, ?_, ?_⟩
      · intro hlf y hy
        rw [hlf] at hy
        exact hin' y (hxt y (by
          have : y ∈ xs := hy
          simp [this])) hlf
      · have : chunkSize (cutFirst leaf (x :: xs)) ≤ chunkSize (x :: xs) := by
          unfold chunkSize; rw [hc3]; omega
        omega
      · intro hlt
        subst hlt
        intro y hy
        have hy' : y ∈ x :: xs := hy
        rcases List.mem_append.1 (hmem y hy') with hm | hm
        · exact h.rows rfl y hm
        · rw [List.mem_singleton.1 hm]; exact hrow rfl
      · intro hlf y hy
        subst hlf
        simp [cutFirst] at hy
        rw [← hy]; rfl

/-! ## The tree below a list of items -/

def keyOf (l : List Tup) : Option Nat := l.head?.map (·.key)

/-- `rows` are the rows below the items `l` of level `i`, in order; `nx` is the key of the row that
comes next.  The first key of a page is not used (`f`). -/
inductive Under (disk : List Page) : Nat → Bool → Option Nat → List Item → List Tup → Prop where
  | leaf (f : Bool) (nx : Option Nat) (l : List Item) : Under disk 0 f nx l (l.map (·.row.tup))
  | nil (i : Nat) (f : Bool) (nx : Option Nat) : Under disk (i + 1) f nx [] []
  | cons {i : Nat} {f : Bool} {nx : Option Nat} {x : Item} {l : List Item} {q : Page}
      {a b : List Tup} (hq : disk[x.row.tup.body]? = some q)
      (hhi : q.hi.map (·.key) = (keyOf b).or nx) (ha : Under disk i true ((keyOf b).or nx) q.items a)
      (hne : a ≠ []) (hk : f = true ∨ keyOf a = some x.row.tup.key)
      (hl : Under disk (i + 1) false nx l b) : Under disk (i + 1) f nx (x :: l) (a ++ b)

theorem Under.mono {disk : List Page} {i : Nat} {f : Bool} {nx : Option Nat} {l : List Item}
    {rows : List Tup} (h : Under disk i f nx l rows) (d : List Page) :
    Under (disk ++ d) i f nx l rows := by
  induction h with
  | leaf f nx l => exact .leaf f nx l
  | nil i f nx => exact .nil i f nx
  | cons hq hhi _ hne hk _ ih1 ih2 =>
    refine .cons ?_ hhi ih1 hne hk ih2
    rw [List.getElem?_append_left ((List.getElem?_eq_some_iff.1 hq).1)]
    exact hq

theorem Under.weaken {disk : List Page} {i : Nat} {f : Bool} {nx : Option Nat} {l : List Item}
    {rows : List Tup} (h : Under disk i f nx l rows) : Under disk i true nx l rows := by
  cases h with
  | leaf f nx l => exact .leaf true nx l
  | nil i f nx => exact .nil i true nx
  | cons hq hhi ha hne hk hl => exact .cons hq hhi ha hne (.inl rfl) hl

theorem Under.empty_iff {disk : List Page} {i : Nat} {f : Bool} {nx : Option Nat} {l : List Item}
    {rows : List Tup} (h : Under disk i f nx l rows) : l = [] ↔ rows = [] := by
  cases h with
  | leaf f nx l => simp
  | nil i f nx => simp
  | cons hq hhi ha hne hk hl => simp [hne]

theorem keyOf_append {a b : List Tup} (h : a ≠ []) : keyOf (a ++ b) = keyOf a := by
  cases a with
  | nil => exact absurd rfl h
  | cons x a => rfl

theorem keyOf_append' (a b : List Tup) : keyOf (a ++ b) = (keyOf a).or (keyOf b) := by
  cases a with
  | nil => rfl
  | cons x a => rfl

theorem Under.cut {disk : List Page} {i : Nat} {nx : Option Nat} {l : List Item}
    {rows : List Tup} (leaf : Bool) (h : Under disk i true nx l rows) :
    Under disk i true nx (cutFirst leaf l) rows := by
  cases leaf with
  | true => cases l <;> exact h
  | false =>
    cases h with
    | leaf nx l =>
      have : (l.map (·.row.tup)) = (cutFirst false l).map (·.row.tup) := by
        cases l <;> rfl
      rw [this]; exact .leaf _ _ _
    | nil i nx => exact .nil _ _ _
    | cons hq hhi ha hne hk hl => exact .cons hq hhi ha hne (.inl rfl) hl

theorem Under.append {disk : List Page} {i : Nat} {f : Bool} {nx : Option Nat} {l m : List Item}
    {a b : List Tup} {nx1 : Option Nat} (h : Under disk i f nx1 l a)
    (hm : Under disk i false nx m b) (hnx : nx1 = (keyOf b).or nx) :
    Under disk i f nx (l ++ m) (a ++ b) := by
  induction h with
  | leaf f nx1 l =>
    cases hm
    rw [← List.map_append]
    exact .leaf _ _ _
  | nil i f nx1 =>
    cases f with
    | true => exact hm.weaken
    | false => exact hm
  | cons hq hhi ha hne hk _ _ ih2 =>
    subst hnx
    rw [List.append_assoc, List.cons_append]
    refine .cons hq ?_ ?_ hne hk (ih2 hm rfl)
    · rw [keyOf_append', Option.or_assoc]; exact hhi
    · rw [keyOf_append', Option.or_assoc]; exact ha

theorem Under.split {disk : List Page} {i : Nat} {f : Bool} {nx : Option Nat} {m : List Item} :
    ∀ {l : List Item} {rows : List Tup}, Under disk i f nx (l ++ m) rows → l ≠ [] →
    ∃ a b, rows = a ++ b ∧ Under disk i f ((keyOf b).or nx) l a ∧ Under disk i false nx m b := by
  intro l
  induction l generalizing f with
  | nil => intro _ _ h; exact absurd rfl h
  | cons x l ih =>
    intro rows h _
    match i, h with
    | 0, .leaf f nx _ =>
      exact ⟨(x :: l).map (·.row.tup), m.map (·.row.tup), by simp, .leaf _ _ _, .leaf _ _ _⟩
    | i + 1, .cons (a := a) hq hhi ha hne hk hl =>
      by_cases hl0 : l = []
      · subst hl0
        refine ⟨a, _, rfl, ?_, hl⟩
        rw [show a = a ++ [] by simp]
        exact .cons hq (by simpa [keyOf] using hhi) (by simpa [keyOf] using ha) hne hk (.nil _ _ _)
      · obtain ⟨a', b', h1, h2, h3⟩ := ih hl hl0
        subst h1
        refine ⟨a ++ a', b', by simp, ?_, h3⟩
        refine .cons hq ?_ ?_ hne hk h2
        · rw [hhi, keyOf_append', Option.or_assoc]
        · rw [keyOf_append', Option.or_assoc] at ha; exact ha

/-- The key of an item that is not the first is that of its first row. -/
theorem Under.key {disk : List Page} {i : Nat} {nx : Option Nat} {x : Item} {l : List Item}
    {rows : List Tup} (h : Under disk i false nx (x :: l) rows) :
    keyOf rows = some x.row.tup.key := by
  cases h with
  | leaf f nx l => rfl
  | cons hq hhi ha hne hk hl =>
    rw [keyOf_append hne]
    rcases hk with h | h
    · cases h
    · exact h

end Verif.PageSplit
