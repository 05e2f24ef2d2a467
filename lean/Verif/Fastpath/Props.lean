import Verif.Fastpath.Check

/-!
# Search in B-trees: properties C65 - C68

`findDownlink ix fp k p`, `lookup ix fp k n t`, `scan ix fp cs n t` and `scanBack ix fp cs n t`
are the search for a key in an internal page, the look-up of a row and the index scans, with
(`fp = true`) or without the fast path.  `TreeWf ix n t` says that `t` is an ordered tree, and
`Tree.rows n t` are its rows.
-/

namespace Verif.Fastpath

/-! ## Cases -/

/-- `int4` columns: ascending with NULLs last, descending with NULLs first; a `float8` column. -/
def exI : Field := ⟨.int4, true, false, true, false⟩
def exD : Field := ⟨.int4, false, true, true, false⟩
def exF : Field := ⟨.float8, true, false, true, false⟩

/-- `PRIMARY KEY (a, b)`. -/
def exPk : Idx := ⟨.primary, [exI, exI], 2, true⟩

/-- `UNIQUE (u)` on a table with a primary key of one column: keys end with the primary key. -/
def exUq : Idx := ⟨.unique, [exI, exI], 1, true⟩

def exRow (a b : Int) : Row := [some (.int a), some (.int b)]

def exChunk (l : List Row) : Chunk Unit := ⟨true, l.map fun x => (x, ())⟩

/-- A tree of three leaves with two chunks each. -/
def exTree : Tree 1 :=
  let leafA : Page Unit := ⟨true, false, [exChunk [exRow 1 1, exRow 1 5], exChunk [exRow 2 3,
    exRow 3 1]], [exRow 2 3, exRow 4 0]⟩
  let leafB : Page Unit := ⟨true, false, [exChunk [exRow 4 0, exRow 5 2], exChunk [exRow 6 1]],
    [exRow 6 0, exRow 7 1]⟩
  let leafC : Page Unit := ⟨true, true, [exChunk [exRow 7 1, exRow 7 2], exChunk [exRow 8 0,
    exRow 8 4, exRow 9 1]], [exRow 8 0]⟩
  let root : Page (Page Unit) := ⟨true, true, [⟨true, [([], leafA), (exRow 4 0, leafB)]⟩,
    ⟨true, [(exRow 7 1, leafC)]⟩], [exRow 7 1]⟩
  root

theorem exTree_wf : TreeWf exPk 1 exTree :=
  treeCheck_ok 1 none none exTree (by decide +kernel)

theorem exTree_noNan : TreeNoNan 1 exTree := nanCheck_ok 1 exTree (by decide +kernel)

theorem exPk_wf : exPk.Wf := by
  refine ⟨?_, by decide, by decide⟩
  intro f hf h
  simp only [exPk, List.mem_cons, List.not_mem_nil, or_false] at hf
  rcases hf with rfl | rfl <;> cases h

/-- A condition on an `int4` column. -/
def exC (j : Nat) (op : Op) (v : Int) : SCond := ⟨j, op, .int v, some .int4⟩

/-- A leaf with rows of which several have the same first column. -/
def exLeaf : Tree 0 :=
  let p : Page Unit := ⟨true, true, [exChunk [exRow 5 1, exRow 5 3], exChunk [exRow 5 4, exRow 5 6],
    exChunk [exRow 6 1, exRow 6 5]], [exRow 5 4, exRow 6 1]⟩
  p

theorem exLeaf_wf : TreeWf exPk 0 exLeaf := treeCheck_ok 0 none none exLeaf (by decide +kernel)

/-- The same for backward scans. -/
def exLeafBack : Tree 0 :=
  let p : Page Unit := ⟨true, true, [exChunk [exRow 5 1, exRow 6 1], exChunk [exRow 6 2, exRow 7 1],
    exChunk [exRow 9 9]], [exRow 6 2, exRow 9 9]⟩
  p

theorem exLeafBack_wf : TreeWf exPk 0 exLeafBack :=
  treeCheck_ok 0 none none exLeafBack (by decide +kernel)

/-- A leaf of the unique index: a row with `u = 5` and the primary key 2 has begun the second chunk,
and is gone; a row with the primary key 1 has come. -/
def exLeafUq : Tree 0 :=
  let p : Page Unit := ⟨true, true, [exChunk [exRow 4 9, exRow 5 1], exChunk [exRow 6 3, exRow 7 4],
    exChunk [exRow 9 9]], [exRow 5 2, exRow 9 9]⟩
  p

theorem exLeafUq_wf : TreeWf exUq 0 exLeafUq := treeCheck_ok 0 none none exLeafUq (by decide +kernel)

/-- `PRIMARY KEY (a, f)` with a `float8` column, and a leaf with a NaN. -/
def exPkF : Idx := ⟨.primary, [exI, exF], 2, true⟩

def exRowF (a : Int) (v : Val) : Row := [some (.int a), some v]

def exLeafF : Tree 0 :=
  let p : Page Unit := ⟨true, true, [exChunk [exRowF 5 (.fl 1), exRowF 5 (.fl 3)],
    exChunk [exRowF 5 .nan], exChunk [exRowF 6 (.fl 1)]], [exRowF 5 .nan, exRowF 6 (.fl 1)]⟩
  p

theorem exLeafF_wf : TreeWf exPkF 0 exLeafF := treeCheck_ok 0 none none exLeafF (by decide +kernel)

/-! ## C65: the fast path finds what the regular search finds -/

/-- In a page.  Missing: bounds that exclude a value in a column that is not the last one, bounds
of unique indexes that only fix the unique columns, and NaN; there it is false, see below.  (An
exclusive upper bound in the last column is covered by `C67_back_partial`.) -/
theorem C65_page_partial {α} {ix : Idx} (hix : ix.Wf) {k : SKey} (hk : ix.KeyOk k)
    (hs : ix.safe k = true) {p : Page α} (ok : PageOk ix false p) (hn : PageNoNan false p) :
    findDownlink ix true k p = findDownlink ix false k p :=
  findDownlink_fast hix hk hs ok hn

/-- The first and the last page, in every page. -/
theorem C65_ends {α} {ix : Idx} (hix : ix.Wf) (p : Page α) :
    findDownlink ix true .none p = findDownlink ix false .none p ∧
    findDownlink ix true .rightmost p = findDownlink ix false .rightmost p :=
  ⟨findDownlink_none hix p, findDownlink_rightmost hix p⟩

/-- In a tree. -/
theorem C65_descent_partial {ix : Idx} (hix : ix.Wf) {k : SKey} (hk : ix.RowKey k)
    (ha : ix.agrees k = true) {n : Nat} {t : Tree n} (ok : TreeWf ix n t) (hn : TreeNoNan n t) :
    descend ix true k n t = descend ix false k n t :=
  descend_agrees hix hk ha ok hn

/-- The case of the tree above: the fast path is used (`fastMeta`), the key is covered, and the
search comes to the second leaf. -/
theorem C65_case : (exPk.fastMeta (.tuple (exRow 5 2))).isSome = true ∧
    exPk.safe (.tuple (exRow 5 2)) = true ∧ exPk.RowKey (.tuple (exRow 5 2)) ∧
    exPk.safe (.hikey (exRow 7 1)) = true ∧
    descend exPk true (.tuple (exRow 5 2)) 1 exTree
      = some ⟨4, [exRow 4 0, exRow 5 2, exRow 6 1], 1⟩ :=
  ⟨by decide +kernel, by decide +kernel, rfl, by decide +kernel, by decide +kernel⟩

/-- A bound that excludes a value in the first column: the fast path stops at the second chunk, the
regular search at the third. -/
theorem C65_violated_open : ∃ (ix : Idx) (k : SKey) (t : Tree 0), ix.Wf ∧ ix.RowKey k ∧
    TreeWf ix 0 t ∧ TreeNoNan 0 t ∧ descend ix true k 0 t ≠ descend ix false k 0 t :=
  ⟨exPk, lowKey exPk [exC 0 .gt 5, exC 1 .ge 3], exLeaf, exPk_wf, lowKey_row _ _, exLeaf_wf,
    nanCheck_ok 0 exLeaf (by decide +kernel), by decide +kernel⟩

/-- The unique columns only: the fast path stops at the second chunk, the row is in the first. -/
theorem C65_violated_unique : ∃ (ix : Idx) (k : SKey) (t : Tree 0), ix.Wf ∧ ix.RowKey k ∧
    TreeWf ix 0 t ∧ TreeNoNan 0 t ∧ descend ix true k 0 t ≠ descend ix false k 0 t := by
  refine ⟨exUq, lowKey exUq [exC 0 .eq 5], exLeafUq, ⟨?_, by decide, by decide⟩, lowKey_row _ _,
    exLeafUq_wf, nanCheck_ok 0 exLeafUq (by decide +kernel), by decide +kernel⟩
  intro f hf h
  simp only [exUq, List.mem_cons, List.not_mem_nil, or_false] at hf
  rcases hf with rfl | rfl <;> cases h

/-- NaN in a chunk's upper end is skipped by the comparisons of C. -/
theorem C65_violated_nan : ∃ (ix : Idx) (k : SKey) (t : Tree 0), ix.Wf ∧ ix.RowKey k ∧
    ix.safe k = true ∧ TreeWf ix 0 t ∧ descend ix true k 0 t ≠ descend ix false k 0 t := by
  refine ⟨exPkF, .tuple (exRowF 5 (.fl 3)), exLeafF, ⟨?_, by decide, by decide⟩, rfl,
    by decide +kernel, exLeafF_wf, by decide +kernel⟩
  intro f hf h
  simp only [exPkF, List.mem_cons, List.not_mem_nil, or_false] at hf
  rcases hf with rfl | rfl <;> cases h

/-! ## C66: a look-up finds the row if there is one -/

/-- Two rows have the same key: the same values (or NULLs) in all columns of the key. -/
def SameKey (ix : Idx) (a b : Row) : Prop :=
  ∀ (i : Nat) (f : Field), ix.cols[i]? = some f → f.ignored = false → a[i]? = b[i]?

theorem cmpRows_same_iff {fs : List Field} {a b : Row} (ha : Long fs a) (hb : Long fs b) :
    cmpRows fs a b = 0 ↔ ∀ (i : Nat) (f : Field), fs[i]? = some f → f.ignored = false → a[i]? = b[i]? := by
  induction fs generalizing a b with
  | nil => simp [cmpRows]
  | cons f fs ih =>
    cases a with
    | nil => unfold Long at ha; simp at ha
    | cons x a =>
      cases b with
      | nil => unfold Long at hb; simp at hb
      | cons y b =>
        have ha' : Long fs a := by unfold Long at *; simpa using ha
        have hb' : Long fs b := by unfold Long at *; simpa using hb
        have hsplit : (∀ (i : Nat) (g : Field), (f :: fs)[i]? = some g → g.ignored = false →
              (x :: a)[i]? = (y :: b)[i]?) ↔ (f.ignored = false → x = y) ∧
              ∀ (i : Nat) (g : Field), fs[i]? = some g → g.ignored = false → a[i]? = b[i]? := by
          constructor
          · intro h
            refine ⟨fun hf => ?_, fun i g hg hi => ?_⟩
            · have := h 0 f (by simp) hf
              simpa using this
            · have := h (i + 1) g (by simpa using hg) hi
              simpa using this
          · rintro ⟨h0, h1⟩ i g hg hi
            cases i with
            | zero =>
              simp only [List.getElem?_cons_zero, Option.some.injEq] at hg ⊢
              subst hg
              exact h0 hi
            | succ i =>
              simp only [List.getElem?_cons_succ] at hg ⊢
              exact h1 i g hg hi
        rw [hsplit, ← ih ha' hb']
        cases hi : f.ignored with
        | true => simp [cmpRows, hi]
        | false =>
          simp only [cmpRows, hi, Bool.false_eq_true, if_false, forall_const]
          rw [← cmpCol_zero (f := f)]
          by_cases hc : cmpCol f x y = 0
          · simp [hc]
          · simp [hc]

theorem cmpKey_same {ix : Idx} {a b : Row} (ha : ix.Full a) (hb : ix.Full b) :
    ix.cmpKey (.tuple a) b = 0 ↔ SameKey ix a b :=
  cmpRows_same_iff ha.long hb.long

/-- With the regular search: the row found is in the tree and has the key, and if none is found there
is none. -/
theorem C66_regular {ix : Idx} {a : Row} (ha : ix.Full a) {n : Nat} {t : Tree n}
    (ok : TreeWf ix n t) :
    ∃ res, lookup ix false (.tuple a) n t = some res ∧
      (∀ r, res = some r → r ∈ Tree.rows n t ∧ SameKey ix a r) ∧
      (res = none → ∀ r ∈ Tree.rows n t, ¬ SameKey ix a r) := by
  obtain ⟨res, h, h1, h2⟩ := lookup_slow (ix := ix) (k := .tuple a) ha ok
  have hfull : ∀ r ∈ Tree.rows n t, ix.Full r := fun r hr =>
      (TreeOk.between n _ _ t ok r hr).1
  refine ⟨res, h, fun r hr => ?_, fun hr r hm hs => ?_⟩
  · obtain ⟨hm, hc⟩ := h1 r hr
    exact ⟨hm, (cmpKey_same ha (hfull r hm)).1 hc⟩
  · exact h2 hr r hm ((cmpKey_same ha (hfull r hm)).2 hs)

/-- With the fast path.  Missing as in C65. -/
theorem C66_fast_partial {ix : Idx} (hix : ix.Wf) {a : Row} (ha : ix.Full a)
    (hs : ix.agrees (.tuple a) = true) {n : Nat} {t : Tree n} (ok : TreeWf ix n t)
    (hn : TreeNoNan n t) :
    ∃ res, lookup ix true (.tuple a) n t = some res ∧
      (∀ r, res = some r → r ∈ Tree.rows n t ∧ SameKey ix a r) ∧
      (res = none → ∀ r ∈ Tree.rows n t, ¬ SameKey ix a r) := by
  rw [lookup_agrees hix (k := .tuple a) ha hs ok hn]
  exact C66_regular ha ok

theorem C66_case : exPk.agrees (.tuple (exRow 8 4)) = true ∧
    lookup exPk true (.tuple (exRow 8 4)) 1 exTree = some (some (exRow 8 4)) ∧
    lookup exPk true (.tuple (exRow 8 3)) 1 exTree = some none :=
  ⟨by decide +kernel, by decide +kernel, by decide +kernel⟩

/-- A row of a table with a `float8` column in its primary key is not found though it is there. -/
theorem C66_violated : ∃ (ix : Idx) (r : Row) (t : Tree 0), TreeWf ix 0 t ∧ r ∈ Tree.rows 0 t ∧
    lookup ix true (.tuple r) 0 t = some none :=
  ⟨exPkF, exRowF 5 (.fl 3), exLeafF, exLeafF_wf, by decide +kernel, by decide +kernel⟩

/-! ## C67: an index scan returns the rows that satisfy its conditions -/

/-- With the regular search, forward and backward. -/
theorem C67_regular {ix : Idx} {cs : List SCond} (hcs : CondsOk ix cs) {n : Nat} {t : Tree n}
    (ok : TreeWf ix n t) :
    scan ix false cs n t
      = some ((Tree.rows n t).filter fun r => cs.all (fun c => c.on ix r)) ∧
    scanBack ix false cs n t
      = some ((Tree.rows n t).filter fun r => cs.all (fun c => c.on ix r)).reverse :=
  ⟨scan_slow hcs ok, scanBack_slow hcs ok⟩

/-- Forward with the fast path.  Missing as in C65. -/
theorem C67_forward_partial {ix : Idx} (hix : ix.Wf) {cs : List SCond} (hcs : CondsOk ix cs)
    (ha : ix.agrees (lowKey ix cs) = true) {n : Nat} {t : Tree n} (ok : TreeWf ix n t)
    (hn : TreeNoNan n t) :
    scan ix true cs n t
      = some ((Tree.rows n t).filter fun r => cs.all (fun c => c.on ix r)) :=
  scan_agrees hix hcs ha ok hn

/-- Backward with the fast path.  Missing as in C65, but for exclusive bounds in the last column. -/
theorem C67_back_partial {ix : Idx} (hix : ix.Wf) {cs : List SCond} (hcs : CondsOk ix cs)
    (hl : ix.agrees (lowKey ix cs) = true)
    (hh : ix.agreesUp ((colRanges cs ix.fields 0).map (·.2)) = true)
    {n : Nat} {t : Tree n} (ok : TreeWf ix n t) (hn : TreeNoNan n t) :
    scanBack ix true cs n t
      = some ((Tree.rows n t).filter fun r => cs.all (fun c => c.on ix r)).reverse :=
  scanBack_agrees hix hcs hl hh ok hn

/-- `a >= 5 AND b > 0 AND b <= 2`, with the fast path forward. -/
theorem C67_case_forward :
    let cs := [exC 0 .ge 5, exC 1 .gt 0, exC 1 .le 2]
    CondsOk exPk cs ∧ exPk.agrees (lowKey exPk cs) = true ∧
    (exPk.fastMeta (lowKey exPk cs)).isSome = true ∧
    scan exPk true cs 1 exTree
      = some [exRow 5 2, exRow 6 1, exRow 7 1, exRow 7 2, exRow 9 1] :=
  ⟨condsCheck_ok (by decide +kernel), by decide +kernel, by decide +kernel, by decide +kernel⟩

/-- `a <= 8 AND b < 3`, with the fast path backward. -/
theorem C67_case_back :
    let cs := [exC 0 .le 8, exC 1 .lt 3]
    CondsOk exPk cs ∧ exPk.agrees (lowKey exPk cs) = true ∧
    exPk.agreesUp ((colRanges cs exPk.fields 0).map (·.2)) = true ∧
    (exPk.fastMeta (highKey exPk cs)).isSome = true ∧
    scanBack exPk true cs 1 exTree
      = some [exRow 8 0, exRow 7 2, exRow 7 1, exRow 6 1, exRow 5 2, exRow 4 0, exRow 3 1,
          exRow 1 1] :=
  ⟨condsCheck_ok (by decide +kernel), by decide +kernel, by decide +kernel, by decide +kernel,
    by decide +kernel⟩

/-- `a > 5 AND b >= 3` returns rows with `a = 5`. -/
theorem C67_violated_forward : ∃ (ix : Idx) (cs : List SCond) (t : Tree 0), CondsOk ix cs ∧
    TreeWf ix 0 t ∧ TreeNoNan 0 t ∧ ∃ l r, scan ix true cs 0 t = some l ∧ r ∈ l ∧
      cs.all (fun c => c.on ix r) = false :=
  ⟨exPk, [exC 0 .gt 5, exC 1 .ge 3], exLeaf, condsCheck_ok (by decide +kernel), exLeaf_wf,
    nanCheck_ok 0 exLeaf (by decide +kernel), [exRow 5 4, exRow 5 6, exRow 6 5], exRow 5 4,
    by decide +kernel, by decide +kernel, by decide +kernel⟩

/-- `a < 6 AND b <= 3`, backward, returns a row with `a = 6`. -/
theorem C67_violated_back : ∃ (ix : Idx) (cs : List SCond) (t : Tree 0), CondsOk ix cs ∧
    TreeWf ix 0 t ∧ TreeNoNan 0 t ∧ ∃ l r, scanBack ix true cs 0 t = some l ∧ r ∈ l ∧
      cs.all (fun c => c.on ix r) = false :=
  ⟨exPk, [exC 0 .lt 6, exC 1 .le 3], exLeafBack, condsCheck_ok (by decide +kernel), exLeafBack_wf,
    nanCheck_ok 0 exLeafBack (by decide +kernel), [exRow 6 1, exRow 5 1], exRow 6 1,
    by decide +kernel, by decide +kernel, by decide +kernel⟩

/-- `u = 5` does not return the row with `u = 5`. -/
theorem C67_violated_unique : ∃ (ix : Idx) (cs : List SCond) (t : Tree 0), CondsOk ix cs ∧
    TreeWf ix 0 t ∧ TreeNoNan 0 t ∧ scan ix true cs 0 t = some [] ∧
      ∃ r ∈ Tree.rows 0 t, cs.all (fun c => c.on ix r) = true :=
  ⟨exUq, [exC 0 .eq 5], exLeafUq, condsCheck_ok (by decide +kernel), exLeafUq_wf,
    nanCheck_ok 0 exLeafUq (by decide +kernel), by decide +kernel, exRow 5 1, by decide +kernel,
    by decide +kernel⟩

/-! ## C68: ranges of keys -/

/-- The range of a column has the values that satisfy all conditions on it; it is taken for empty
only if no value does, and for one value only if just the values equal to it do. -/
theorem C68_range (f : Field) (cs : List SCond) (j : Nat) :
    let r := colRange f cs j
    (∀ x, (r.1.unb = true ∨ cmpVal f r.1 x ≤ 0) ∧ (r.2.unb = true ∨ 0 ≤ cmpVal f r.2 x) ↔
      ∀ c ∈ cs, c.col = j → c.holds f x = true) ∧
    (0 ≤ (cmpBounds f r.1 r.2).1 → ∀ x, ∃ c ∈ cs, c.col = j ∧ c.holds f x = false) ∧
    ((cmpBounds f r.1 r.2).2 = true → ∀ x,
      (∀ c ∈ cs, c.col = j → c.holds f x = true) ↔
        ∃ v, x = some v ∧ r.1.isnull = false ∧ pgCmp r.1.value v = 0) := by
  obtain ⟨hl, hh, hok⟩ := colRange_ok f cs j
  dsimp only
  refine ⟨hok, ?_, ?_⟩
  · intro h x
    have hn := range_empty hl hh h x
    rw [hok x] at hn
    apply Decidable.byContradiction
    intro hc
    apply hn
    intro c hcm hj
    cases hb : c.holds f x with
    | true => rfl
    | false => exact absurd ⟨c, hcm, hj, hb⟩ hc
  · intro h x
    obtain ⟨hu, hx⟩ := range_exact hl hh h
    rw [← hok x, hx x]
    -- both bounds are values with their ends
    have hv : (colRange f cs j).1.isnull = false ∧ (colRange f cs j).1.incl = true := by
      unfold cmpBounds at h
      by_cases hc : (!(colRange f cs j).1.isnull && !(colRange f cs j).1.unb &&
          !(colRange f cs j).2.isnull && !(colRange f cs j).2.unb) = true
      · rw [if_pos hc] at h
        simp only [Bool.and_eq_true, Bool.not_eq_true'] at hc
        dsimp only at h
        refine ⟨hc.1.1.1, ?_⟩
        split at h <;> split at h <;> simp_all
      · rw [if_neg hc] at h
        exfalso
        split at h
        · split at h
          · split at h <;> simp at h
          · split at h <;> simp at h
        · split at h
          · simp at h
          · split at h <;> simp at h
    cases x with
    | none =>
      simp only [cmpVal, hv.1, Bool.false_eq_true, if_false]
      constructor
      · intro h0; split at h0 <;> omega
      · rintro ⟨v, h1, _⟩; cases h1
    | some v =>
      simp only [cmpVal, hv.1, hv.2, Bool.not_false, if_true, Bool.not_true, Bool.and_false,
        Bool.false_eq_true, if_false, Option.some.injEq, true_and]
      constructor
      · intro h0
        refine ⟨v, rfl, ?_⟩
        split at h0 <;> omega
      · rintro ⟨w, rfl, h0⟩
        split <;> omega

/-- A row satisfies all conditions exactly if it is in the ranges of all columns. -/
theorem C68_row {ix : Idx} {cs : List SCond} (h : CondsOk ix cs) {r : Row} (hr : ix.Full r) :
    AllOk ix.fields (colRanges cs ix.fields 0) r ↔ cs.all (fun c => c.on ix r) = true :=
  allOk_on h hr

/-- `a < 7 AND a >= 3 AND a IS NOT NULL` on a descending column with NULLs first (the comparison
operators are those of the order of storage): NULL is not in the range, 5 is; `a = 5 AND a > 5` is
empty and `a = 5 AND a >= 3` one value. -/
theorem C68_case :
    (let r := colRange exD [exC 0 .gt 7, exC 0 .le 3, ⟨0, .notNull, .int 0, none⟩] 0
     decide (cmpVal exD r.1 none ≤ 0) = false ∧ decide (cmpVal exD r.1 (some (.int 5)) ≤ 0) = true ∧
     decide (0 ≤ cmpVal exD r.2 (some (.int 5))) = true) ∧
    (let r := colRange exI [exC 0 .eq 5, exC 0 .gt 5] 0
     decide (0 ≤ (cmpBounds exI r.1 r.2).1) = true) ∧
    (let r := colRange exI [exC 0 .eq 5, exC 0 .ge 3] 0
     (cmpBounds exI r.1 r.2).2 = true) :=
  ⟨by decide +kernel, by decide +kernel, by decide +kernel⟩

end Verif.Fastpath
