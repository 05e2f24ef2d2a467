import Verif.Fastpath.Fast

/-!
# One page: the fast path finds what the regular search finds
-/

namespace Verif.Fastpath

/-- All compared columns looked at are set and of their types. -/
def setRow : List Field → Row → Bool
  | [], _ => true
  | f :: fs, some v :: r => v.hasTy f.ty && setRow fs r
  | _, _ => false

/-- No column is NaN. -/
def noNan (r : Row) : Bool := r.all fun x => decide (x ≠ some .nan)

theorem okRow_of {fs : List Field} {r : Row} (h : setRow fs r = true) (hn : noNan r = true) :
    okRow fs r = true := by
  induction fs generalizing r with
  | nil => rfl
  | cons f fs ih =>
    cases r with
    | nil => simp [setRow] at h
    | cons x r =>
      cases x with
      | none => simp [setRow] at h
      | some v =>
        rw [setRow, Bool.and_eq_true_iff] at h
        rw [noNan, List.all_cons, Bool.and_eq_true_iff] at hn
        have hv : v ≠ .nan := fun hh => by
          have := of_decide_eq_true hn.1
          exact this (by rw [hh])
        simp only [okRow, okVal, h.1, hv, ne_eq, not_false_eq_true, decide_true, Bool.and_self,
          Bool.true_and]
        exact ih h.2 hn.2

theorem setRow_take {fs : List Field} {r : Row} (m : Nat) (h : setRow fs r = true) :
    setRow (fs.take m) r = true := by
  induction fs generalizing r m with
  | nil => simp [setRow]
  | cons f fs ih =>
    cases m with
    | zero => simp [setRow]
    | succ m =>
      cases r with
      | nil => simp [setRow] at h
      | cons x r =>
        cases x with
        | none => simp [setRow] at h
        | some v =>
          rw [setRow, Bool.and_eq_true_iff] at h
          simp [setRow, h.1, ih m h.2]

/-- The key of item `i` of chunk `c`. -/
def Page.key {α} (p : Page α) (c i : Nat) : Row := ((p.itemsAt c).map (·.1)).getD i []

/-- The upper end of chunk `c`. -/
def Page.hikey {α} (p : Page α) (c : Nat) : Row := p.hikeys.getD c []

/-- A well-formed page: chunks in order between their ends, and fixed formats only without
NULLs. The first item of an internal page has no key. -/
structure PageOk {α} (ix : Idx) (leaf : Bool) (p : Page α) : Prop where
  ne : p.chunks ≠ []
  len : p.hikeys.length = p.chunks.length - (if p.rightmost then 1 else 0)
  fullH : ∀ c, c < p.hikeys.length → ix.Full (p.hikey c)
  sortH : ∀ c d, c < d → d < p.hikeys.length → ix.cmp (p.hikey c) (p.hikey d) < 0
  fullI : ∀ c i, i < (p.itemsAt c).length → (leaf = true ∨ 0 < c + i) → ix.Full (p.key c i)
  sortI : ∀ c i j, i < j → j < (p.itemsAt c).length → (leaf = true ∨ 0 < c + i) →
    ix.cmp (p.key c i) (p.key c j) < 0
  below : ∀ c i, i < (p.itemsAt c).length → c < p.hikeys.length → (leaf = true ∨ 0 < c + i) →
    ix.cmp (p.key c i) (p.hikey c) < 0
  above : ∀ c i, i < (p.itemsAt (c + 1)).length → c < p.hikeys.length →
    ix.cmp (p.hikey c) (p.key (c + 1) i) ≤ 0
  filled : leaf = false → ∀ c, c < p.chunks.length → 0 < (p.itemsAt c).length
  setH : p.fixed = true → ∀ c, c < p.hikeys.length → setRow ix.fields (p.hikey c) = true
  setI : ∀ c i, (p.chunks.getD c ⟨false, []⟩).fixed = true → i < (p.itemsAt c).length →
    (leaf = true ∨ 0 < c + i) → setRow ix.fields (p.key c i) = true

/-- No key on the page is NaN in any column. -/
structure PageNoNan {α} (leaf : Bool) (p : Page α) : Prop where
  h : ∀ c, c < p.hikeys.length → noNan (p.hikey c) = true
  i : ∀ c i, i < (p.itemsAt c).length → (leaf = true ∨ 0 < c + i) → noNan (p.key c i) = true

/-- Included columns have no operator class. -/
def Idx.Wf (ix : Idx) : Prop :=
  (∀ f ∈ ix.fields, f.ignored = true → f.opOk = false) ∧ ix.nUnique ≤ ix.fields.length ∧
    0 < ix.nUnique

/-- Keys the fast path treats as the comparators do. -/
def Idx.safe (ix : Idx) : SKey → Bool
  | .none => true
  | .rightmost => true
  | .bound bs =>
    decide (bs.length = ix.fields.length) && safeB ix.cols (ix.numKeys (.bound bs)) bs &&
      bs.all VB.typed && bs.all VB.noNan
  | .tuple r => decide (ix.fields.take (ix.numKeys (.tuple r)) = ix.cols) && okKeyRow ix.cols r
  | .hikey r => decide (ix.fields.take (ix.numKeys (.hikey r)) = ix.cols) && okKeyRow ix.cols r
  | _ => false

/-- What the regular search asks of a separator. -/
def Idx.left (ix : Idx) (k : SKey) (r : Row) : Prop :=
  (if k.isHikey then 1 else 0) ≤ ix.cmpKey k r

theorem sgn_lt {c : Int} : sgn c = .lt ↔ c < 0 := by
  unfold sgn
  by_cases h : c < 0
  · simp [h]
  · by_cases h2 : c = 0 <;> simp [h, h2]

theorem sgn_gt {c : Int} : sgn c = .gt ↔ 0 < c := by
  unfold sgn
  by_cases h : c < 0
  · simp [h]; omega
  · by_cases h2 : c = 0
    · simp [h2]
    · simp [h, h2]; omega

theorem cols_take {ix : Idx} (hix : ix.Wf) {k : SKey} :
    ix.numKeys k ≤ ix.cols.length ∧ ix.fields.take (ix.numKeys k) = ix.cols.take (ix.numKeys k) := by
  obtain ⟨_, h1, _⟩ := hix
  unfold Idx.cols
  by_cases hp : ix.kind = .primary
  · rw [if_pos hp]
    have hn : ix.numKeys k = ix.nUnique := by
      unfold Idx.numKeys
      cases k <;> simp [hp]
    rw [hn]
    simp only [List.length_take, List.take_take, Nat.min_self]
    exact ⟨by omega, trivial⟩
  · rw [if_neg hp]
    refine ⟨?_, rfl⟩
    unfold Idx.numKeys
    cases k <;> simp only [] <;> first | exact h1 | (split <;> omega)

/-- The keys and the entries of a search by the fast path. -/
theorem fast_entry {ix : Idx} (hix : ix.Wf) {k : SKey} (hk : ix.KeyOk k) (hs : ix.safe k = true)
    {m : Meta} (hm : ix.fastMeta k = some m) :
    (∀ a b, ix.Full a → ix.Full b → setRow ix.fields a = true → setRow ix.fields b = true →
      noNan a = true → noNan b = true → ix.cmp a b ≤ 0 → LexLe m.cols 0 a b) ∧
    (∀ a, ix.Full a → setRow ix.fields a = true → noNan a = true →
      ((if m.inclusive then fcmp m.cols 0 a = .lt else fcmp m.cols 0 a ≠ .gt) ↔ ix.left k a)) := by
  unfold Idx.fastMeta at hm
  by_cases hb : 4 ≤ ix.fields.length ∨ ix.fixedSpec = false
  · rw [if_pos hb] at hm; cases hm
  · rw [if_neg hb] at hm
    dsimp only at hm
    by_cases ho : (ix.fields.take (ix.numKeys k)).all (·.opOk) = true
    · rw [if_pos ho] at hm
      have hi : ∀ f ∈ ix.fields.take (ix.numKeys k), f.ignored = false := by
        intro f hf
        have h1 := List.all_eq_true.1 ho f hf
        cases h2 : f.ignored with
        | false => rfl
        | true =>
          have := hix.1 f (List.mem_of_mem_take hf) h2
          rw [this] at h1; cases h1
      obtain ⟨hle, htk⟩ := cols_take hix (k := k)
      cases hg : getKeys (ix.fields.take (ix.numKeys k)) k with
      | none => rw [hg] at hm; cases hm
      | some cs =>
        rw [hg] at hm
        simp only [Option.map_some, Option.some.injEq] at hm
        subst hm
        -- the columns are of their types
        have lex : okCols (ix.fields.take (ix.numKeys k)) cs = true →
            ∀ a b, setRow ix.fields a = true → setRow ix.fields b = true →
            noNan a = true → noNan b = true → ix.cmp a b ≤ 0 →
            LexLe (cs.zip ((ix.fields.take (ix.numKeys k)).map (·.asc))) 0 a b := by
          intro hoc a b ha hb' na nb hab
          refine lexLe_of_cmp _ cs a b 0 hi hoc ?_ ?_ ?_
          · exact okRow_of (setRow_take _ ha) na
          · exact okRow_of (setRow_take _ hb') nb
          · rw [htk]
            exact cmpRows_take _ hab
        have rows : ∀ r : Row, getKeys (ix.fields.take (ix.numKeys k)) k
              = some (rowCols (ix.fields.take (ix.numKeys k)) r) →
            ix.fields.take (ix.numKeys k) = ix.cols → okKeyRow ix.cols r = true →
            okCols (ix.fields.take (ix.numKeys k)) cs = true ∧
            ∀ a, setRow ix.fields a = true → noNan a = true →
              fcmp (cs.zip ((ix.fields.take (ix.numKeys k)).map (·.asc))) 0 a
                = sgn (ix.cmp a r) := by
          intro r hgr heq hok
          rw [hgr] at hg
          have hg' := Option.some.inj hg
          refine ⟨?_, ?_⟩
          · rw [← hg', heq]; exact okCols_rowCols _ _ hok
          · intro a ha na
            rw [← hg', heq]
            rw [heq] at hi
            exact fcmp_rowCols ix.cols r a 0 hi hok
              (by rw [← heq]; exact okRow_of (setRow_take _ ha) na)
        cases k with
        | none => exact absurd hk (by simp [Idx.KeyOk])
        | rightmost => exact absurd hk (by simp [Idx.KeyOk])
        | uniqLow bs => exact absurd hk (by simp [Idx.KeyOk])
        | uniqHigh bs => exact absurd hk (by simp [Idx.KeyOk])
        | tuple r =>
          simp only [Idx.safe, Bool.and_eq_true, decide_eq_true_eq] at hs
          obtain ⟨hoc, hf⟩ := rows r rfl hs.1 hs.2
          refine ⟨fun a b _ _ ha hb' na nb hab => lex hoc a b ha hb' na nb hab, ?_⟩
          intro a _ ha na
          simp only [SKey.isHikey, Bool.false_eq_true, if_false, Idx.left, Idx.cmpKey]
          rw [hf a ha na, ne_eq, sgn_gt]
          have := cmpRows_neg ix.cols a r
          simp only [Idx.cmp] at *
          omega
        | hikey r =>
          simp only [Idx.safe, Bool.and_eq_true, decide_eq_true_eq] at hs
          obtain ⟨hoc, hf⟩ := rows r rfl hs.1 hs.2
          refine ⟨fun a b _ _ ha hb' na nb hab => lex hoc a b ha hb' na nb hab, ?_⟩
          intro a _ ha na
          simp only [SKey.isHikey, if_true, Idx.left, Idx.cmpKey]
          rw [hf a ha na, sgn_lt]
          have := cmpRows_neg ix.cols a r
          simp only [Idx.cmp] at *
          omega
        | bound bs =>
          simp only [Idx.safe, Bool.and_eq_true, decide_eq_true_eq] at hs
          obtain ⟨⟨⟨hl, hsb⟩, hty⟩, hnn⟩ := hs
          simp only [getKeys] at hg
          cases hbc : boundCols (ix.fields.take (ix.numKeys (.bound bs))) bs with
          | none => rw [hbc] at hg; cases hg
          | some cs' =>
            rw [hbc] at hg
            simp only [Option.map_some, Option.some.injEq] at hg
            have hcs : cs' = cs := by
              rw [← hg]
              have h0 : (ix.fields.take (ix.numKeys (.bound bs))).length - bs.length = 0 := by
                simp only [List.length_take]; omega
              cases (bs.take (ix.fields.take (ix.numKeys (.bound bs))).length).getLast? with
              | none => rfl
              | some b => simp only [h0, List.replicate_zero, List.append_nil]
            rw [hcs] at hbc
            have hoc := okCols_boundCols _ _ _ hty hnn hbc
            refine ⟨fun a b _ _ ha hb' na nb hab => lex hoc a b ha hb' na nb hab, ?_⟩
            intro a fa ha na
            simp only [SKey.isHikey, Bool.false_eq_true, if_false, Idx.left, Idx.cmpKey]
            -- the bound has the columns compared, and more
            have hcut : ∀ (fs : List Field) (bs : List VB) (r : Row),
                cmpBnd 0 fs bs r = cmpBnd 0 fs (bs.take fs.length) r := by
              intro fs
              induction fs with
              | nil => intro bs r; simp [cmpBnd]
              | cons f fs ih =>
                intro bs r
                cases bs with
                | nil => simp [cmpBnd]
                | cons b bs =>
                  cases r with
                  | nil => simp [cmpBnd]
                  | cons x r =>
                    simp only [List.length_cons, List.take_succ_cons, cmpBnd]
                    rw [ih bs r]
            have hcutS : ∀ (fs : List Field) (m : Nat) (bs : List VB),
                safeB fs m bs = safeB fs m (bs.take fs.length) := by
              have tl : ∀ (fs : List Field) (bs : List VB),
                  tailOk fs bs = tailOk fs (bs.take fs.length) := by
                intro fs
                induction fs with
                | nil => intro bs; simp [tailOk]
                | cons f fs ih =>
                  intro bs
                  cases bs with
                  | nil => rfl
                  | cons b bs =>
                    simp only [List.length_cons, List.take_succ_cons, tailOk]
                    rw [ih bs]
              intro fs
              induction fs with
              | nil =>
                intro m bs
                cases m with
                | zero => simp only [safeB]; exact tl [] bs
                | succ m => simp [safeB]
              | cons f fs ih =>
                intro m bs
                cases m with
                | zero => simp only [safeB]; exact tl _ bs
                | succ m =>
                  cases bs with
                  | nil => rfl
                  | cons b bs =>
                    simp only [List.length_cons, List.take_succ_cons, safeB]
                    rw [ih m bs]
            have hcutB : ∀ (fs : List Field) (n : Nat) (bs : List VB), fs.length ≤ n →
                boundCols fs bs = boundCols fs (bs.take n) := by
              intro fs
              induction fs with
              | nil => intro n bs _; simp [boundCols]
              | cons f fs ih =>
                intro n bs hn
                simp only [List.length_cons] at hn
                cases n with
                | zero => omega
                | succ n =>
                  cases bs with
                  | nil => rfl
                  | cons b bs =>
                    simp only [List.take_succ_cons, boundCols]
                    rw [ih n bs (by omega)]
            rw [hcut]
            rw [hcutS] at hsb
            rw [hcutB _ ix.cols.length bs (by simp only [List.length_take]; omega), htk] at hbc
            rw [htk] at hi ⊢
            have hall : ∀ (q : VB → Bool), bs.all q = true →
                (bs.take ix.cols.length).all q = true := by
              intro q hq
              rw [List.all_eq_true] at hq ⊢
              exact fun b hb => hq b (List.mem_of_mem_take hb)
            have hcl := ix.cols_le
            exact fcmp_boundCols ix.cols (ix.numKeys (.bound bs)) (bs.take ix.cols.length) cs a 0 hi
              (by simp only [List.length_take]; omega) hle (hall _ hty) (hall _ hnn) hbc hsb
              (by rw [← htk]; exact okRow_of (setRow_take _ ha) na) fa.long
    · rw [if_neg ho] at hm; cases hm

/-! ## Regular search -/

theorem Idx.left_anti {ix : Idx} {k : SKey} (hk : ix.KeyOk k) {a b : Row} (ha : ix.Full a)
    (hb : ix.Full b) (h : ix.cmp a b ≤ 0) (hl : ix.left k b) : ix.left k a := by
  have := Idx.cmpKey_anti hk ha hb h
  unfold Idx.left at *
  cases hh : k.isHikey
  · simp only [hh, Bool.false_eq_true, if_false] at *
    exact this.1 hl
  · simp only [hh, if_true] at *
    have := this.2 (by omega)
    omega

theorem PageOk.cmpH {α} {ix : Idx} {leaf : Bool} {p : Page α} (ok : PageOk ix leaf p) {c d : Nat}
    (h : c ≤ d) (hd : d < p.hikeys.length) : ix.cmp (p.hikey c) (p.hikey d) ≤ 0 := by
  rcases Nat.lt_or_ge c d with h1 | h1
  · exact Int.le_of_lt (ok.sortH c d h1 hd)
  · have : c = d := by omega
    subst this
    rw [Idx.cmp, cmpRows_self]
    exact Int.le_refl _

theorem PageOk.cmpI {α} {ix : Idx} {leaf : Bool} {p : Page α} (ok : PageOk ix leaf p) {c i j : Nat}
    (h : i ≤ j) (hj : j < (p.itemsAt c).length) (h0 : leaf = true ∨ 0 < c + i) :
    ix.cmp (p.key c i) (p.key c j) ≤ 0 := by
  rcases Nat.lt_or_ge i j with h1 | h1
  · exact Int.le_of_lt (ok.sortI c i j h1 hj h0)
  · have : i = j := by omega
    subst this
    rw [Idx.cmp, cmpRows_self]
    exact Int.le_refl _

theorem PageOk.pos {α} {ix : Idx} {leaf : Bool} {p : Page α} (ok : PageOk ix leaf p) :
    0 < p.chunks.length := List.length_pos_iff.2 ok.ne

/-- The chunk found by the regular search. -/
theorem searchChunks_spec {α} {ix : Idx} {leaf : Bool} {p : Page α} (ok : PageOk ix leaf p)
    {k : SKey} (hk : ix.KeyOk k) :
    searchChunks ix k p ≤ p.chunks.length - 1 ∧
    (∀ i, i < searchChunks ix k p → ix.left k (p.hikey i)) ∧
    (∀ i, searchChunks ix k p ≤ i → i < p.chunks.length - 1 → ¬ ix.left k (p.hikey i)) := by
  have hp := ok.pos
  have hl := ok.len
  obtain ⟨_, h2, h3, h4⟩ := bsearch_spec (fun i => ix.cmpKey k (p.hikeys.getD i []))
    (if k.isHikey then 1 else 0) p.chunks.length 0 (p.chunks.length - 1) (Nat.zero_le _) (by omega)
    (by
      intro i j _ hij hj hlj
      have hj' : j < p.hikeys.length := by rw [hl]; split <;> omega
      exact Idx.left_anti hk (ok.fullH i (by omega)) (ok.fullH j hj') (ok.cmpH hij hj') hlj)
  refine ⟨h2, fun i hi => h3 i (Nat.zero_le _) hi, fun i hi hi' hc => ?_⟩
  have := h4 i hi hi'
  simp only [Idx.left, Page.hikey] at hc
  omega

/-- The item found by the regular search of an internal page; `i + 1` items are not above. -/
theorem searchItems_spec {α} {ix : Idx} {p : Page α} (ok : PageOk ix false p)
    {k : SKey} (hk : ix.KeyOk k) {c : Nat} :
    (c = 0 → 0 < (p.itemsAt c).length → 0 < searchItems ix k false c (p.itemsAt c)) ∧
    searchItems ix k false c (p.itemsAt c) ≤ (p.itemsAt c).length ∧
    (∀ i, i < searchItems ix k false c (p.itemsAt c) → 0 < c + i → ix.left k (p.key c i)) ∧
    (∀ i, searchItems ix k false c (p.itemsAt c) ≤ i → i < (p.itemsAt c).length → 0 < c + i →
      ¬ ix.left k (p.key c i)) := by
  unfold searchItems
  by_cases h0 : (p.itemsAt c).length = 0
  · rw [if_pos h0]
    exact ⟨fun _ h => (by omega), by omega, fun i hi => (by omega), fun i _ hi => (by omega)⟩
  · rw [if_neg h0]
    have htgt : (if (!false && !k.isHikey) = true then (0 : Int) else 1)
        = if k.isHikey then 1 else 0 := by cases k.isHikey <;> simp
    rw [htgt]
    have hres : ∀ i, 0 < c + i → (if (!false && i == 0 && c == 0) = true then (1 : Int)
        else ix.cmpKey k (((p.itemsAt c).map (·.1)).getD i [])) = ix.cmpKey k (p.key c i) := by
      intro i hi
      have : ¬ (!false && i == 0 && c == 0) = true := by
        simp only [Bool.not_false, Bool.true_and, Bool.and_eq_true, beq_iff_eq]
        omega
      rw [if_neg this]; rfl
    obtain ⟨_, h2, h3, h4⟩ := bsearch_spec (fun i =>
        if (!false && i == 0 && c == 0) = true then (1 : Int)
        else ix.cmpKey k (((p.itemsAt c).map (·.1)).getD i []))
      (if k.isHikey then 1 else 0) (p.itemsAt c).length 0 (p.itemsAt c).length (Nat.zero_le _)
      (by omega)
      (by
        intro i j _ hij hj hlj
        by_cases hi0 : 0 < c + i
        · rw [hres j (by omega)] at hlj
          rw [hres i hi0]
          exact Idx.left_anti hk (ok.fullI c i (by omega) (Or.inr hi0))
            (ok.fullI c j hj (Or.inr (by omega))) (ok.cmpI hij hj (Or.inr hi0)) hlj
        · have h1 : i = 0 := by omega
          have h2 : c = 0 := by omega
          subst h1; subst h2
          simp only [Bool.not_false, beq_self_eq_true, Bool.and_self, if_true]
          split <;> omega)
    refine ⟨?_, h2, ?_, ?_⟩
    · intro hc hn
      subst hc
      rcases Nat.eq_zero_or_pos (bsearch (fun i =>
        if (!false && i == 0 && 0 == 0) = true then (1 : Int)
        else ix.cmpKey k (((p.itemsAt 0).map (·.1)).getD i []))
        (if k.isHikey then 1 else 0) (p.itemsAt 0).length 0 (p.itemsAt 0).length) with hz | hz
      · have := h4 0 (by rw [hz]; exact Nat.le_refl _) hn
        simp only [Bool.not_false, beq_self_eq_true, Bool.and_self, if_true] at this
        exfalso
        revert this
        cases k.isHikey <;> simp
      · exact hz
    · intro i hi hp
      have := h3 i (Nat.zero_le _) hi
      rw [hres i hp] at this
      exact this
    · intro i hi hi' hp hc
      have := h4 i hi hi'
      rw [hres i hp] at this
      unfold Idx.left at hc
      omega

/-! ## The fast path -/

/-- The chunk found by the fast path is the one of the regular search, and the key is on this
page. -/
theorem fastChunk_eq {α} {ix : Idx} (hix : ix.Wf) {leaf : Bool} {p : Page α} (ok : PageOk ix leaf p)
    (hn : PageNoNan leaf p) {k : SKey} (hk : ix.KeyOk k) (hs : ix.safe k = true)
    {m : Meta} (hm : ix.fastMeta k = some m) {c : Nat} (hc : fastChunk m p = some c) :
    searchChunks ix k p = c ∧ goesRight ix k p = false := by
  obtain ⟨e1, e2⟩ := fast_entry hix hk hs hm
  unfold fastChunk at hc
  by_cases hf : p.fixed = true
  · rw [if_pos hf] at hc
    dsimp only at hc
    have hl := ok.len
    have hp := ok.pos
    have hcount : (if p.rightmost = true then p.chunks.length - 1 else p.chunks.length)
        = p.hikeys.length := by
      rw [hl]; split <;> omega
    rw [hcount] at hc
    obtain ⟨f1, f2, f3⟩ := fastPick_spec m (fun i => p.hikeys.getD i []) p.hikeys.length (by
      intro i j hij hj
      exact e1 _ _ (ok.fullH i (by omega)) (ok.fullH j hj) (ok.setH hf i (by omega))
        (ok.setH hf j hj) (hn.h i (by omega)) (hn.h j hj) (ok.cmpH hij hj))
    by_cases hge : p.hikeys.length ≤ fastPick m (fun i => p.hikeys.getD i []) p.hikeys.length
    · rw [if_pos hge] at hc; cases hc
    · rw [if_neg hge] at hc
      have hc' := Option.some.inj hc
      rw [hc'] at f1 f2 f3 hge
      have g2 : ∀ i, i < c → ix.left k (p.hikey i) := fun i hi =>
        (e2 _ (ok.fullH i (by omega)) (ok.setH hf i (by omega)) (hn.h i (by omega))).1 (f2 i hi)
      have g3 : ∀ i, c ≤ i → i < p.hikeys.length → ¬ ix.left k (p.hikey i) := fun i hi hi' hh =>
        f3 i hi hi' ((e2 _ (ok.fullH i hi') (ok.setH hf i hi') (hn.h i hi')).2 hh)
      obtain ⟨s1, s2, s3⟩ := searchChunks_spec ok hk
      have hle : p.chunks.length - 1 ≤ p.hikeys.length := by rw [hl]; split <;> omega
      have hle2 : p.hikeys.length ≤ p.chunks.length := by rw [hl]; omega
      refine ⟨?_, ?_⟩
      · exact cut_unique (P := fun i => ix.left k (p.hikey i)) (lo := 0) (hi := p.chunks.length - 1)
          (Nat.zero_le _) s1 (Nat.zero_le _) (by omega) (fun i _ hi => s2 i hi)
          (fun i hi hi' => s3 i hi hi') (fun i _ hi => g2 i hi)
          (fun i hi hi' => g3 i hi (by omega))
      · have := g3 (p.hikeys.length - 1) (by omega) (by omega)
        unfold goesRight
        unfold Idx.left Page.hikey at this
        cases k <;> first | rfl | simp only [decide_eq_false this, Bool.and_false]
  · rw [if_neg hf] at hc; cases hc

/-- The fast path finds the downlink of the regular search. -/
theorem fastDownlink_eq {α} {ix : Idx} (hix : ix.Wf) {p : Page α} (ok : PageOk ix false p)
    (hn : PageNoNan false p) {k : SKey} (hk : ix.KeyOk k) (hs : ix.safe k = true)
    {m : Meta} (hm : ix.fastMeta k = some m) {l : Loc} (hl : fastDownlink m p = some l) :
    slowDownlink ix k p = .at l := by
  obtain ⟨e1, e2⟩ := fast_entry hix hk hs hm
  unfold fastDownlink at hl
  cases hc : fastChunk m p with
  | none => rw [hc] at hl; cases hl
  | some c =>
    rw [hc] at hl
    dsimp only at hl
    obtain ⟨hsc, hgr⟩ := fastChunk_eq hix ok hn hk hs hm hc
    have hslow : slowDownlink ix k p =
        match prevLoc p ⟨c, searchItems ix k false c (p.itemsAt c)⟩ with
        | some l => .at l
        | none => .right := by
      unfold slowDownlink
      rw [hgr]
      simp only [Bool.false_eq_true, if_false]
      cases k <;> first
        | exact (show False from hk).elim
        | (simp only [pageSearch, hsc]
           generalize prevLoc p _ = o
           cases o <;> rfl)
    rw [hslow]
    obtain ⟨s0, s1, s2, s3⟩ := searchItems_spec ok hk (c := c)
    obtain ⟨c1, _, _⟩ := searchChunks_spec ok hk
    have hcl : c < p.chunks.length := by have := ok.pos; omega
    have hne := ok.filled rfl c hcl
    by_cases hf : (p.chunks.getD c ⟨false, []⟩).fixed = true
    · rw [if_pos hf] at hl
      by_cases h0 : c = 0
      · rw [if_pos h0] at hl
        subst h0
        have hkl : ((p.itemsAt 0).map (·.1)).length = (p.itemsAt 0).length := by simp
        rw [hkl] at hl
        have idx : ∀ i, ((p.itemsAt 0).map (·.1)).getD (i + 1) [] = p.key 0 (i + 1) := fun i => rfl
        obtain ⟨f1, f2, f3⟩ := fastPick_spec m (fun i => ((p.itemsAt 0).map (·.1)).getD (i + 1) [])
          ((p.itemsAt 0).length - 1) (by
            intro i j hij hj
            exact e1 _ _ (ok.fullI 0 (i + 1) (by omega) (Or.inr (by omega)))
              (ok.fullI 0 (j + 1) (by omega) (Or.inr (by omega)))
              (ok.setI 0 (i + 1) hf (by omega) (Or.inr (by omega)))
              (ok.setI 0 (j + 1) hf (by omega) (Or.inr (by omega)))
              (hn.i 0 (i + 1) (by omega) (Or.inr (by omega)))
              (hn.i 0 (j + 1) (by omega) (Or.inr (by omega)))
              (ok.cmpI (by omega) (by omega) (Or.inr (by omega))))
        generalize hpk : fastPick m (fun i => ((p.itemsAt 0).map (·.1)).getD (i + 1) [])
          ((p.itemsAt 0).length - 1) = q at *
        have hq : searchItems ix k false 0 (p.itemsAt 0) = q + 1 := by
          refine cut_unique (P := fun i => ix.left k (p.key 0 i)) (lo := 1)
            (hi := (p.itemsAt 0).length) (s0 rfl hne) s1 (by omega) (by omega)
            (fun i h1 hi => s2 i hi (by omega))
            (fun i hi hi' => s3 i hi hi' (by have := s0 rfl hne; omega)) ?_ ?_
          · intro i h1 hi
            obtain ⟨j, rfl⟩ : ∃ j, i = j + 1 := ⟨i - 1, by omega⟩
            exact (e2 _ (ok.fullI 0 (j + 1) (by omega) (Or.inr (by omega)))
              (ok.setI 0 (j + 1) hf (by omega) (Or.inr (by omega)))
              (hn.i 0 (j + 1) (by omega) (Or.inr (by omega)))).1 (f2 j (by omega))
          · intro i hi hi' hh
            obtain ⟨j, rfl⟩ : ∃ j, i = j + 1 := ⟨i - 1, by omega⟩
            exact f3 j (by omega) (by omega)
              ((e2 _ (ok.fullI 0 (j + 1) (by omega) (Or.inr (by omega)))
              (ok.setI 0 (j + 1) hf (by omega) (Or.inr (by omega)))
              (hn.i 0 (j + 1) (by omega) (Or.inr (by omega)))).2 hh)
        rw [hq]
        have hl' := Option.some.inj hl
        rw [← hl']
        simp [prevLoc]
      · rw [if_neg h0] at hl
        have hkl : ((p.itemsAt c).map (·.1)).length = (p.itemsAt c).length := by simp
        rw [hkl] at hl
        obtain ⟨f1, f2, f3⟩ := fastPick_spec m (fun i => ((p.itemsAt c).map (·.1)).getD i [])
          ((p.itemsAt c).length) (by
            intro i j hij hj
            exact e1 _ _ (ok.fullI c i (by omega) (Or.inr (by omega)))
              (ok.fullI c j (by omega) (Or.inr (by omega)))
              (ok.setI c i hf (by omega) (Or.inr (by omega)))
              (ok.setI c j hf (by omega) (Or.inr (by omega)))
              (hn.i c i (by omega) (Or.inr (by omega)))
              (hn.i c j (by omega) (Or.inr (by omega)))
              (ok.cmpI (by omega) (by omega) (Or.inr (by omega))))
        generalize hpk : fastPick m (fun i => ((p.itemsAt c).map (·.1)).getD i [])
          ((p.itemsAt c).length) = q at *
        have hq : searchItems ix k false c (p.itemsAt c) = q := by
          refine cut_unique (P := fun i => ix.left k (p.key c i)) (lo := 0)
            (hi := (p.itemsAt c).length) (Nat.zero_le _) s1 (Nat.zero_le _) (by omega)
            (fun i h1 hi => s2 i hi (by omega))
            (fun i hi hi' => s3 i hi hi' (by omega)) ?_ ?_
          · intro i h1 hi
            exact (e2 _ (ok.fullI c i (by omega) (Or.inr (by omega)))
              (ok.setI c i hf (by omega) (Or.inr (by omega)))
              (hn.i c i (by omega) (Or.inr (by omega)))).1 (f2 i (by omega))
          · intro i hi hi' hh
            exact f3 i (by omega) (by omega)
              ((e2 _ (ok.fullI c i (by omega) (Or.inr (by omega)))
              (ok.setI c i hf (by omega) (Or.inr (by omega)))
              (hn.i c i (by omega) (Or.inr (by omega)))).2 hh)
        rw [hq]
        by_cases hq0 : 0 < q
        · rw [if_pos hq0] at hl
          have hl' := Option.some.inj hl
          rw [← hl']
          simp [prevLoc, hq0]
        · rw [if_neg hq0] at hl
          by_cases hf2 : (p.chunks.getD (c - 1) ⟨false, []⟩).fixed = true
          · rw [if_pos hf2] at hl
            have hl' := Option.some.inj hl
            obtain ⟨d, rfl⟩ : ∃ d, c = d + 1 := ⟨c - 1, by omega⟩
            have hd := ok.filled rfl d (by omega)
            have hd0 : ¬ (p.itemsAt d).length = 0 := by omega
            rw [← hl']
            have hz : q = 0 := by omega
            subst hz
            simp only [prevLoc, Nat.lt_irrefl, if_false, prevChunk, hd0, Nat.add_sub_cancel]
          · rw [if_neg hf2] at hl; cases hl
    · rw [if_neg hf] at hl; cases hl

end Verif.Fastpath
