import Verif.Fastpath.Model

/-!
# Searches in arrays

The binary search and the narrowing of the fast path both find the place where a monotone
classification of the entries changes.
-/

namespace Verif.Fastpath

/-! ## Binary search -/

theorem bsearch_spec (res : Nat → Int) (tgt : Int) :
    ∀ (fuel low high : Nat), low ≤ high → high - low ≤ fuel →
      (∀ i j, low ≤ i → i ≤ j → j < high → tgt ≤ res j → tgt ≤ res i) →
      low ≤ bsearch res tgt fuel low high ∧ bsearch res tgt fuel low high ≤ high ∧
      (∀ i, low ≤ i → i < bsearch res tgt fuel low high → tgt ≤ res i) ∧
      (∀ i, bsearch res tgt fuel low high ≤ i → i < high → res i < tgt) := by
  intro fuel
  induction fuel with
  | zero =>
    intro low high h1 h2 _
    simp only [bsearch]
    refine ⟨Nat.le_refl _, h1, ?_, ?_⟩
    · intro i a b; omega
    · intro i a b; omega
  | succ fuel ih =>
    intro low high h1 h2 hm
    simp only [bsearch]
    by_cases hlt : low < high
    · rw [if_pos hlt]
      have hmid1 : low ≤ low + (high - low) / 2 := by omega
      have hmid2 : low + (high - low) / 2 < high := by omega
      generalize low + (high - low) / 2 = mid at hmid1 hmid2
      by_cases ht : tgt ≤ res mid
      · rw [if_pos ht]
        obtain ⟨a, b, c, d⟩ := ih (mid + 1) high (by omega) (by omega)
          (fun i j hi hij hj h => hm i j (by omega) hij hj h)
        refine ⟨by omega, b, ?_, d⟩
        intro i hi hlt'
        by_cases hc : mid + 1 ≤ i
        · exact c i hc hlt'
        · exact hm i mid hi (by omega) hmid2 ht
      · rw [if_neg ht]
        obtain ⟨a, b, c, d⟩ := ih low mid (by omega) (by omega)
          (fun i j hi hij hj h => hm i j hi hij (by omega) h)
        refine ⟨a, by omega, c, ?_⟩
        intro i hi hlt'
        by_cases hc : i < mid
        · exact d i hi hc
        · exact Int.not_le.1 fun h => ht (hm mid i hmid1 (by omega) hlt' h)
    · rw [if_neg hlt]
      refine ⟨Nat.le_refl _, h1, ?_, ?_⟩
      · intro i a b; omega
      · intro i a b; omega

/-- The place where a monotone test changes is unique. -/
theorem cut_unique {P : Nat → Prop} {a b lo hi : Nat}
    (ha : lo ≤ a) (ha' : a ≤ hi) (hb : lo ≤ b) (hb' : b ≤ hi)
    (a1 : ∀ i, lo ≤ i → i < a → P i) (a2 : ∀ i, a ≤ i → i < hi → ¬ P i)
    (b1 : ∀ i, lo ≤ i → i < b → P i) (b2 : ∀ i, b ≤ i → i < hi → ¬ P i) : a = b := by
  rcases Nat.lt_trichotomy a b with h | h | h
  · exact absurd (b1 a ha h) (a2 a (Nat.le_refl _) (by omega))
  · exact h
  · exact absurd (a1 b hb h) (b2 b (Nat.le_refl _) (by omega))

/-! ## The fast path -/

/-- How one column of an entry lies to the value looked for, as `arraySearch` sees it. -/
def side (asc : Bool) (key v : Val) : Ordering :=
  if cEq v key then .eq
  else if (if asc then cGt v key else cLt v key) then .gt
  else .lt

/-- Ranks of the three sides. -/
def rk : Ordering → Nat
  | .lt => 0
  | .eq => 1
  | .gt => 2

theorem cEq_gt {v k : Val} (h : cEq v k = true) : cGt v k = false := by
  cases v <;> cases k <;> simp_all [cEq, cGt]

theorem cEq_lt {v k : Val} (h : cEq v k = true) : cLt v k = false := by
  cases v <;> cases k <;> simp_all [cEq, cLt]

theorem asLoop_spec (arr : Nat → Val) (key : Val) (asc : Bool) (lo up : Nat) (hlu : lo ≤ up)
    (hm : ∀ i j, lo ≤ i → i ≤ j → j < up → rk (side asc key (arr i)) ≤ rk (side asc key (arr j))) :
    ∀ (n i lower : Nat) (set : Bool), lo ≤ i → i + n = up →
      (set = false → ∀ j, lo ≤ j → j < i → side asc key (arr j) = .lt) →
      (set = true → lo ≤ lower ∧ lower < i ∧ (∀ j, lo ≤ j → j < lower → side asc key (arr j) = .lt) ∧
        (∀ j, lower ≤ j → j < i → side asc key (arr j) = .eq)) →
      let r := asLoop arr key asc up n i lower set
      lo ≤ r.1 ∧ r.1 ≤ r.2 ∧ r.2 ≤ up ∧
      (∀ j, lo ≤ j → j < r.1 → side asc key (arr j) = .lt) ∧
      (∀ j, r.1 ≤ j → j < r.2 → side asc key (arr j) = .eq) ∧
      (∀ j, r.2 ≤ j → j < up → side asc key (arr j) = .gt) := by
  intro n
  induction n with
  | zero =>
    intro i lower set hi hn hf ht
    simp only [asLoop]
    cases set with
    | false =>
      simp only [Bool.false_eq_true, if_false]
      refine ⟨hlu, Nat.le_refl _, Nat.le_refl _, ?_, ?_, ?_⟩
      · intro j a b; exact hf rfl j a (by omega)
      · intro j a b; omega
      · intro j a b; omega
    | true =>
      obtain ⟨a, b, c, d⟩ := ht rfl
      simp only [if_true]
      refine ⟨a, by omega, Nat.le_refl _, c, ?_, ?_⟩
      · intro j x y; exact d j x (by omega)
      · intro j x y; omega
  | succ n ih =>
    intro i lower set hi hn hf ht
    simp only [asLoop]
    by_cases h1 : (cEq (arr i) key && !set) = true
    · rw [if_pos h1]
      have he : cEq (arr i) key = true ∧ set = false := by
        cases hs : cEq (arr i) key <;> cases set <;> simp_all
      have hside : side asc key (arr i) = .eq := by simp [side, he.1]
      refine ih (i + 1) i true (by omega) (by omega) (fun h => by cases h) ?_
      intro _
      refine ⟨hi, by omega, hf he.2, ?_⟩
      intro j x y
      have : j = i := by omega
      rw [this]; exact hside
    · rw [if_neg h1]
      by_cases h2 : (if asc then cGt (arr i) key else cLt (arr i) key) = true
      · rw [if_pos h2]
        have hne : cEq (arr i) key = false := by
          cases hc : cEq (arr i) key
          · rfl
          · rw [cEq_gt hc, cEq_lt hc] at h2
            cases asc <;> simp at h2
        have hside : side asc key (arr i) = .gt := by
          unfold side
          rw [hne, if_neg (by simp), if_pos h2]
        have hup : ∀ j, i ≤ j → j < up → side asc key (arr j) = .gt := by
          intro j x y
          have := hm i j hi x y
          rw [hside] at this
          revert this
          cases side asc key (arr j) <;> simp [rk]
        cases set with
        | false =>
          simp only [Bool.false_eq_true, if_false]
          refine ⟨hi, Nat.le_refl _, by omega, hf rfl, ?_, hup⟩
          intro j a b; omega
        | true =>
          obtain ⟨a, b, c, d⟩ := ht rfl
          simp only [if_true]
          exact ⟨a, by omega, by omega, c, d, hup⟩
      · rw [if_neg h2]
        refine ih (i + 1) lower set (by omega) (by omega) ?_ ?_
        · intro hs j x y
          by_cases hj : j < i
          · exact hf hs j x hj
          · have : j = i := by omega
            rw [this]
            have hne : cEq (arr i) key = false := by
              cases hc : cEq (arr i) key
              · rfl
              · rw [hc, hs] at h1; simp at h1
            unfold side
            rw [hne, if_neg (by simp), if_neg h2]
        · intro hs
          obtain ⟨a, b, c, d⟩ := ht hs
          refine ⟨a, by omega, c, ?_⟩
          intro j x y
          by_cases hj : j < i
          · exact d j x hj
          · have hji : j = i := by omega
            rw [hji]
            cases hc : cEq (arr i) key
            · exfalso
              have h3 : side asc key (arr i) = .lt := by
                unfold side
                rw [hc, if_neg (by simp), if_neg h2]
              have h4 := d lower (Nat.le_refl _) b
              have h5 := hm lower i a (by omega) (by omega)
              rw [h3, h4] at h5
              simp [rk] at h5
            · simp [side, hc]

theorem arraySearch_spec (arr : Nat → Val) (key : Val) (asc : Bool) (lo up : Nat) (hlu : lo ≤ up)
    (hm : ∀ i j, lo ≤ i → i ≤ j → j < up → rk (side asc key (arr i)) ≤ rk (side asc key (arr j))) :
    let r := arraySearch arr key asc lo up
    lo ≤ r.1 ∧ r.1 ≤ r.2 ∧ r.2 ≤ up ∧
    (∀ j, lo ≤ j → j < r.1 → side asc key (arr j) = .lt) ∧
    (∀ j, r.1 ≤ j → j < r.2 → side asc key (arr j) = .eq) ∧
    (∀ j, r.2 ≤ j → j < up → side asc key (arr j) = .gt) := by
  refine asLoop_spec arr key asc lo up hlu hm (up - lo) lo lo false (Nat.le_refl _) (by omega)
    ?_ (fun h => by cases h)
  intro _ j a b; omega

/-- How an entry lies to the key, as the fast path sees it, from column `j` on. -/
def fcmp : List (FCol × Bool) → Nat → Row → Ordering
  | [], _, _ => .eq
  | (.first, _) :: _, _, _ => .gt
  | (.last, _) :: _, _, _ => .lt
  | (.val v, asc) :: cs, j, r =>
    match side asc v (rd r j) with
    | .eq => fcmp cs (j + 1) r
    | s => s

/-- Entry `a` lies before entry `b` column by column, as far as the fast path looks. -/
def LexLe : List (FCol × Bool) → Nat → Row → Row → Prop
  | [], _, _, _ => True
  | (.first, _) :: _, _, _, _ => True
  | (.last, _) :: _, _, _, _ => True
  | (.val v, asc) :: cs, j, a, b =>
    rk (side asc v (rd a j)) ≤ rk (side asc v (rd b j)) ∧
    (side asc v (rd a j) = .eq → side asc v (rd b j) = .eq → LexLe cs (j + 1) a b)

theorem narrow_spec (arr : Nat → Row) :
    ∀ (cs : List (FCol × Bool)) (j lo up : Nat), lo ≤ up →
      (∀ i k, lo ≤ i → i ≤ k → k < up → LexLe cs j (arr i) (arr k)) →
      let r := narrow arr cs j lo up
      lo ≤ r.1 ∧ r.1 ≤ r.2 ∧ r.2 ≤ up ∧
      (∀ i, lo ≤ i → i < r.1 → fcmp cs j (arr i) = .lt) ∧
      (∀ i, r.1 ≤ i → i < r.2 → fcmp cs j (arr i) = .eq) ∧
      (∀ i, r.2 ≤ i → i < up → fcmp cs j (arr i) = .gt) := by
  intro cs
  induction cs with
  | nil =>
    intro j lo up h _
    simp only [narrow]
    refine ⟨Nat.le_refl _, h, Nat.le_refl _, ?_, ?_, ?_⟩
    · intro i a b; omega
    · intro i _ _; rfl
    · intro i a b; omega
  | cons c cs ih =>
    intro j lo up h hm
    obtain ⟨c, asc⟩ := c
    by_cases hlt : lo < up
    · cases c with
      | first =>
        have hr : narrow arr ((FCol.first, asc) :: cs) j lo up = (lo, lo) := by
          simp only [narrow, if_pos hlt]
          cases cs <;> simp [narrow]
        rw [hr]
        refine ⟨Nat.le_refl _, Nat.le_refl _, h, ?_, ?_, ?_⟩
        · intro i a b; simp only at b; omega
        · intro i a b; simp only at a b; omega
        · intro i a b; rfl
      | last =>
        have hr : narrow arr ((FCol.last, asc) :: cs) j lo up = (up, up) := by
          simp only [narrow, if_pos hlt]
          cases cs <;> simp [narrow]
        rw [hr]
        refine ⟨h, Nat.le_refl _, Nat.le_refl _, ?_, ?_, ?_⟩
        · intro i a b; rfl
        · intro i a b; simp only at a b; omega
        · intro i a b; simp only at a; omega
      | val v =>
        simp only [narrow, if_pos hlt]
        obtain ⟨a1, a2, a3, a4, a5, a6⟩ :=
          arraySearch_spec (fun i => rd (arr i) j) v asc lo up h
            (fun i k hi hik hk => (hm i k hi hik hk).1)
        generalize arraySearch (fun i => rd (arr i) j) v asc lo up = r at *
        obtain ⟨b1, b2, b3, b4, b5, b6⟩ := ih (j + 1) r.1 r.2 a2
          (fun i k hi hik hk => (hm i k (by omega) hik (by omega)).2
            (a5 i hi (by omega)) (a5 k (by omega) hk))
        have hf : ∀ i, fcmp ((FCol.val v, asc) :: cs) j (arr i)
            = match side asc v (rd (arr i) j) with
              | .eq => fcmp cs (j + 1) (arr i)
              | s => s := fun _ => rfl
        refine ⟨by omega, b2, by omega, ?_, ?_, ?_⟩
        · intro i x y
          rw [hf]
          by_cases hi : i < r.1
          · rw [a4 i x hi]
          · rw [a5 i (by omega) (by omega)]
            exact b4 i (by omega) y
        · intro i x y
          rw [hf, a5 i (by omega) (by omega)]
          exact b5 i x y
        · intro i x y
          rw [hf]
          by_cases hi : i < r.2
          · rw [a5 i (by omega) hi]
            exact b6 i x hi
          · rw [a6 i (by omega) y]
    · have he : lo = up := by omega
      have hr : narrow arr ((c, asc) :: cs) j lo up = (lo, up) := by
        simp only [narrow, if_neg hlt]
      rw [hr]
      refine ⟨Nat.le_refl _, h, Nat.le_refl _, ?_, ?_, ?_⟩
      · intro i a b; simp only at b; omega
      · intro i a b; simp only at a b; omega
      · intro i a b; simp only at a; omega

/-- The entry picked by the fast path: all before it count as not above the key (for the upper end
of a page: as below it), all from it on do not. -/
theorem fastPick_spec (m : Meta) (arr : Nat → Row) (count : Nat)
    (hm : ∀ i k, i ≤ k → k < count → LexLe m.cols 0 (arr i) (arr k)) :
    fastPick m arr count ≤ count ∧
    (∀ i, i < fastPick m arr count →
      (if m.inclusive then fcmp m.cols 0 (arr i) = .lt else fcmp m.cols 0 (arr i) ≠ .gt)) ∧
    (∀ i, fastPick m arr count ≤ i → i < count →
      ¬ (if m.inclusive then fcmp m.cols 0 (arr i) = .lt else fcmp m.cols 0 (arr i) ≠ .gt)) := by
  obtain ⟨a1, a2, a3, a4, a5, a6⟩ := narrow_spec arr m.cols 0 0 count (Nat.zero_le _)
    (fun i k _ hik hk => hm i k hik hk)
  unfold fastPick
  dsimp only
  generalize narrow arr m.cols 0 0 count = r at *
  cases hi : m.inclusive with
  | true =>
    simp only [if_true]
    refine ⟨by omega, fun i h => a4 i (by omega) h, ?_⟩
    intro i h1 h2
    by_cases h : i < r.2
    · rw [a5 i h1 h]; simp
    · rw [a6 i (by omega) h2]; simp
  | false =>
    simp only [Bool.false_eq_true, if_false]
    refine ⟨by omega, ?_, ?_⟩
    · intro i h
      by_cases h' : i < r.1
      · rw [a4 i (by omega) h']; simp
      · rw [a5 i (by omega) h]; simp
    · intro i h1 h2
      rw [a6 i h1 h2]; simp

end Verif.Fastpath
