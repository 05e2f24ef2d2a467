import Verif.Ucm.Search

/-!
# C12: the usage count map is exact

English claim: the upper levels of the map report a usage level as present below a
node exactly when some page below it has that level, so the search finds a page of
a requested level iff one exists.
-/

namespace Verif.Ucm

/-! ## Specification -/

/-- Word `j` is word `i` or lies in the subtree of `i`: the parent of `j ≥ 15` is
`j / 15 - 1`. -/
inductive Under (i : Nat) : Nat → Prop
  | self : Under i i
  | up (j : Nat) : 15 ≤ j → Under i (j / 15 - 1) → Under i j

/-- Page `p` lies below word `i`: its leaf word does. -/
def PageUnder (g : Geom) (i p : Nat) : Prop := Under i (g.nonLeaf + p / 15)

/-- Some page below word `i` has level `l`. -/
def LevelBelow (g : Geom) (s : State) (i l : Nat) : Prop :=
  ∃ p, p < g.size ∧ PageUnder g i p ∧ s.page p = l

/-- No running update is about to change counter `l` of a word at or below `i`. -/
def Quiet (s : State) (i l : Nat) : Prop :=
  ∀ u ∈ s.pend, Under i u.node → u.prev ≠ l ∧ u.next ≠ l

/-! ## Exactness -/

theorem Under.trans {i j k : Nat} (h1 : Under i j) (h2 : Under j k) : Under i k := by
  induction h2 with
  | self => exact h1
  | up k hk _ ih => exact Under.up k hk ih

theorem quiet_bal {g : Geom} {s : State} (inv : Inv g s) {i j l : Nat} (hq : Quiet s i l)
    (hu : Under i j) (hj : j < g.total) (hl : l < 8) : s.cnt j l = below1 g s j l := by
  have h1 : adding s j l = 0 := by
    unfold adding
    rw [List.countP_eq_zero]
    intro u hm h
    rw [decide_eq_true_eq] at h
    exact (hq u hm (by rw [h.1]; exact hu)).2 h.2
  have h2 : taking s j l = 0 := by
    unfold taking
    rw [List.countP_eq_zero]
    intro u hm h
    rw [decide_eq_true_eq] at h
    exact (hq u hm (by rw [h.1]; exact hu)).1 h.2
  have := inv.bal j l hj hl
  omega

theorem present_down {g : Geom} {s : State} (inv : Inv g s) {l : Nat}
    (hl : l < 8) : ∀ (n i : Nat), g.nonLeaf - i ≤ n → i < g.total → Quiet s i l →
    s.cnt i l ≠ 0 → LevelBelow g s i l := by
  intro n
  induction n with
  | zero =>
    intro i hn hi hq hc
    rw [quiet_bal inv hq .self hi hl] at hc
    unfold below1 at hc
    rw [if_neg (by omega)] at hc
    obtain ⟨c, h1, h2⟩ := count15_pos.1 (Nat.pos_of_ne_zero hc)
    rw [decide_eq_true_eq] at h2
    refine ⟨_, h2.1, ?_, h2.2⟩
    unfold PageUnder
    rw [show g.nonLeaf + ((i - g.nonLeaf) * 15 + c) / 15 = i by omega]
    exact .self
  | succ n ih =>
    intro i hn hi hq hc
    by_cases hnl : i < g.nonLeaf
    · rw [quiet_bal inv hq .self hi hl] at hc
      unfold below1 at hc
      rw [if_pos hnl] at hc
      obtain ⟨c, h1, h2⟩ := count15_pos.1 (Nat.pos_of_ne_zero hc)
      rw [decide_eq_true_eq] at h2
      have hu : Under i ((i + 1) * 15 + c) := by
        refine .up _ (by omega) ?_
        rw [show ((i + 1) * 15 + c) / 15 - 1 = i by omega]
        exact .self
      obtain ⟨p, hp, hpu, hpl⟩ := ih ((i + 1) * 15 + c) (by omega) h2.1
        (fun u hm h => hq u hm (hu.trans h)) h2.2
      exact ⟨p, hp, hu.trans hpu, hpl⟩
    · exact ih i (by omega) hi hq hc

theorem present_up {g : Geom} {D : Nat} (sh : Shape g D) {s : State} (inv : Inv g s) {l i : Nat}
    (hl : l < 8) (hq : Quiet s i l) {j : Nat} (hu : Under i j) (hj : j < g.total)
    (hc : s.cnt j l ≠ 0) : s.cnt i l ≠ 0 := by
  induction hu with
  | self => exact hc
  | up j h15 hu ih =>
    have hjn := lvl_le_of_lt_nonLeaf sh h15 hj
    have hjt : j / 15 - 1 < g.total := by omega
    refine ih hjt ?_
    rw [quiet_bal inv hq hu hjt hl]
    unfold below1
    rw [if_pos hjn]
    apply Nat.ne_of_gt
    apply count15_pos.2
    refine ⟨j % 15, by omega, ?_⟩
    rw [decide_eq_true_eq, show (j / 15 - 1 + 1) * 15 + j % 15 = j by omega]
    exact ⟨hj, hc⟩

/-- **C12** at every moment of every execution: whatever any number of processes
have done and are doing, a word reports level `l` as present exactly when some page
below it has that level, as long as no running update is about to change the
counter of that level at or below the word. -/
theorem C12_exact_when_quiet (size : Nat) (steps : List Step) (i l : Nat)
    (hi : i < (geom size).total) (hl : l < 8)
    (hq : Quiet (run (geom size) steps) i l) :
    (run (geom size) steps).cnt i l ≠ 0 ↔ LevelBelow (geom size) (run (geom size) steps) i l := by
  obtain ⟨D, sh⟩ := geom_shape size
  have inv := run_inv sh steps
  constructor
  · exact present_down inv hl _ i (Nat.le_refl _) hi hq
  · rintro ⟨p, hp, hu, hpl⟩
    have ht : (geom size).nonLeaf + p / 15 < (geom size).total := by
      rw [sh.total]; omega
    refine present_up sh inv hl hq hu ht ?_
    rw [quiet_bal inv hq hu ht hl]
    unfold below1
    rw [if_neg (by omega)]
    apply Nat.ne_of_gt
    apply count15_pos.2
    refine ⟨p % 15, by omega, ?_⟩
    rw [decide_eq_true_eq,
      show ((geom size).nonLeaf + p / 15 - (geom size).nonLeaf) * 15 + p % 15 = p by omega]
    exact ⟨hp, hpl⟩

/-- **C12**, the counters themselves: at every moment a leaf counter plus the
updates still to be added equals the number of pages of its group with that level
plus the updates still to be taken away, and no 4-bit field overflows. -/
theorem C12_leaf_counters (size : Nat) (steps : List Step) (k l : Nat)
    (hk : k * 15 < size) (hl : l < 8) :
    let g := geom size
    let s := run g steps
    s.cnt (g.nonLeaf + k) l + s.pend.countP (fun u => u.node = g.nonLeaf + k ∧ u.next = l) =
      (List.range 15).countP (fun c => k * 15 + c < size ∧ s.page (k * 15 + c) = l) +
        s.pend.countP (fun u => u.node = g.nonLeaf + k ∧ u.prev = l) ∧
    s.cnt (g.nonLeaf + k) l ≤ 15 := by
  obtain ⟨D, sh⟩ := geom_shape size
  have inv := run_inv sh steps
  have hsz : (geom size).size = size := rfl
  have ht : (geom size).nonLeaf + k < (geom size).total := by
    rw [sh.total, hsz]; omega
  have h := inv.bal _ l ht hl
  unfold below1 at h
  rw [if_neg (by omega), show (geom size).nonLeaf + k - (geom size).nonLeaf = k by omega] at h
  exact ⟨h, inv.fits _ l hl⟩

theorem exact_of_quiet {size : Nat} {steps : List Step} {m : Nat → Bool}
    (hq : ∀ l, m l = true → ∀ i, Quiet (run (geom size) steps) i l) :
    Exact (geom size) (run (geom size) steps) m := by
  obtain ⟨D, sh⟩ := geom_shape size
  intro i l hi hl hm
  exact quiet_bal (run_inv sh steps) (hq l hm i) .self hi hl

/-- **C12** for `ucm_occupy_free_page`: when no running update concerns the free
level, the search returns a page, and that page is free, iff there is a free page.
(Without a free page it never returns: every number of turns leaves it running.) -/
theorem C12_occupy (size : Nat) (steps : List Step)
    (hq : ∀ i, Quiet (run (geom size) steps) i FREE) :
    ((∃ p, p < size ∧ (run (geom size) steps).page p = FREE) →
      ∃ fuel p, occupySearch (geom size) (run (geom size) steps) fuel = .found p ∧ p < size ∧
        (run (geom size) steps).page p = FREE) ∧
    ((¬ ∃ p, p < size ∧ (run (geom size) steps).page p = FREE) →
      ∀ fuel, ∃ c, occupySearch (geom size) (run (geom size) steps) fuel = .again c) := by
  obtain ⟨D, sh⟩ := geom_shape size
  have inv := run_inv sh steps
  have ex : Exact (geom size) (run (geom size) steps) (fun l => decide (l = FREE)) :=
    exact_of_quiet (fun l hl i => by rw [decide_eq_true_eq] at hl; rw [hl]; exact hq i)
  have h0 : (0 : Nat) < 15 ^ (D + 2) := Nat.pow_pos (by decide)
  constructor
  · rintro ⟨p, hp, hpl⟩
    obtain ⟨n, q, h1, h2, h3⟩ := search_finds (stop := false)
      (mask := fun l => decide (l = FREE)) (want := fun l => decide (l = FREE)) sh ex (by decide)
      inv.pg (fun l _ => rfl) (fun p => rfl) h0 ⟨p, hp, by rw [hpl]; decide⟩
    rw [decide_eq_true_eq] at h3
    exact ⟨n, q, h1, h2, h3⟩
  · intro hno fuel
    refine search_none_spin (mask := fun l => decide (l = FREE))
      (want := fun l => decide (l = FREE)) sh ex (fun l _ => rfl) (fun p => rfl) ?_ fuel _
      (start_at sh h0)
    rintro ⟨p, hp, hpl⟩
    rw [decide_eq_true_eq] at hpl
    exact hno ⟨p, hp, hpl⟩

theorem nextMask_one {e l : Nat} (he : e < 7) : nextMask 1 e l = decide (l = e) := by
  unfold nextMask
  rw [show (List.range 7) = [0, 1, 2, 3, 4, 5, 6] from rfl]
  simp only [List.any_cons, List.any_nil, show Nat.testBit 1 0 = true from rfl,
    show Nat.testBit 1 1 = false from rfl, show Nat.testBit 1 2 = false from rfl,
    show Nat.testBit 1 3 = false from rfl, show Nat.testBit 1 4 = false from rfl,
    show Nat.testBit 1 5 = false from rfl, show Nat.testBit 1 6 = false from rfl,
    Bool.false_and, Bool.or_false, Bool.true_and]
  rw [Nat.zero_add, Nat.mod_eq_of_lt he, decide_eq_decide]
  exact eq_comm

theorem testBit_one (k : Nat) : Nat.testBit 1 k = decide (k = 0) := by
  cases k with
  | zero => rfl
  | succ k => simp [Nat.testBit_succ]

theorem nextWant_one {e l : Nat} (he : e < 7) (hl : l < 8 ∨ l = INVALID) :
    nextWant 1 e l = decide (l = e) := by
  unfold nextWant
  rw [testBit_one, ← Bool.decide_and, decide_eq_decide]
  unfold INVALID at hl
  omega

theorem nextBlkno_finds {size : Nat} {steps : List Step} {loc : Nat}
    (hq : ∀ l i, l < 7 → Quiet (run (geom size) steps) i l) (hloc : loc < size) :
    ∀ (k e : Nat), e < 7 →
    (∀ k', k' < k → ¬ ∃ p, p < size ∧ (run (geom size) steps).page p = (e + k') % 7) →
    (∃ p, p < size ∧ (run (geom size) steps).page p = (e + k) % 7) →
    ∃ fuel p, ∀ extra, nextBlkno (geom size) (run (geom size) steps) 1 loc (fuel + extra)
      (2 * k + 1) e e = some (p, (e + k) % 7) ∧ p < size ∧
      (run (geom size) steps).page p = (e + k) % 7 := by
  obtain ⟨D, sh⟩ := geom_shape size
  have inv := run_inv sh steps
  have hex : ∀ e, e < 7 → Exact (geom size) (run (geom size) steps) (fun l => decide (l = e)) := by
    intro e he
    exact exact_of_quiet (fun l hl i => by rw [decide_eq_true_eq] at hl; rw [hl]; exact hq e i he)
  have hl2 : loc < 15 ^ (D + 2) := size_lt sh hloc
  intro k
  induction k with
  | zero =>
    intro e he _ ⟨p, hp, hpl⟩
    have e0 : (e + 0) % 7 = e := by omega
    rw [e0] at hpl
    simp only [e0]
    obtain ⟨n, q, h1, h2, h3⟩ := search_finds (stop := true)
      (mask := nextMask 1 e) (want := nextWant 1 e) sh (hex e he)
      (by unfold INVALID; simp; omega)
      inv.pg (fun l _ => nextMask_one he) (fun p => nextWant_one he (inv.pg p)) hl2
      ⟨p, hp, by rw [decide_eq_true_eq]; exact hpl⟩
    rw [decide_eq_true_eq] at h3
    refine ⟨n, q, fun extra => ⟨?_, h2, h3⟩⟩
    have := search_mono (by intro c; simp) n extra _ h1
    show nextBlkno _ _ _ _ _ (0 + 1) _ _ = _
    rw [nextBlkno, nextSearch, this]
  | succ k ih =>
    intro e he hno hyes
    have hne : nextEpoch e < 7 := by unfold nextEpoch; split <;> omega
    have hsh : ∀ j, (nextEpoch e + j) % 7 = (e + (j + 1)) % 7 := by
      intro j; unfold nextEpoch; split <;> omega
    obtain ⟨fuel, p, hf⟩ := ih (nextEpoch e) hne
      (fun k' hk' => by rw [hsh k']; exact hno (k' + 1) (by omega))
      (by rw [hsh k]; exact hyes)
    refine ⟨fuel + 32, p, fun extra => ?_⟩
    have hfe := hf (32 + extra)
    rw [hsh k] at hfe
    refine ⟨?_, hfe.2⟩
    have hg : nextSearch (geom size) (run (geom size) steps) e 1 loc (fuel + 32 + extra) = .giveUp := by
      have h0 := search_none (mask := nextMask 1 e) (want := nextWant 1 e) sh (hex e he)
        (fun l _ => nextMask_one he) (fun p => nextWant_one he (inv.pg p))
        (by
          rintro ⟨p, hp, hpl⟩
          rw [decide_eq_true_eq] at hpl
          refine hno 0 (by omega) ⟨p, hp, ?_⟩
          rw [hpl, Nat.add_zero, Nat.mod_eq_of_lt he])
        31 (start (geom size) loc) (start_at sh hl2) rfl
      unfold nextSearch
      rw [show fuel + 32 + extra = 31 + 1 + (fuel + extra) by omega]
      exact search_mono (by intro c; simp) _ _ _ h0
    have hnee : ¬ nextEpoch e = e := by unfold nextEpoch; split <;> omega
    rw [show 2 * (k + 1) + 1 = (2 * k + 1) + 1 + 1 by omega, nextBlkno, hg]
    dsimp only
    rw [if_pos rfl, nextBlkno, hg]
    dsimp only
    rw [if_neg hnee, show fuel + 32 + extra = fuel + (32 + extra) by omega]
    exact hfe.1

/-- **C12** for `ucm_next_blkno` as the clock calls it (`mask_src = 1`): when no
running update concerns a usage level and some page has one, the search returns a
page; its level is the first one in the order `epoch, epoch + 1, ...` (modulo 7)
which any page has, and that level becomes the epoch. -/
theorem C12_next (size : Nat) (steps : List Step) (loc epoch : Nat) (hloc : loc < size)
    (he : epoch < 7)
    (hq : ∀ l i, l < 7 → Quiet (run (geom size) steps) i l)
    (hex : ∃ p, p < size ∧ (run (geom size) steps).page p < 7) :
    ∃ k, k < 7 ∧
      (∀ k', k' < k → ¬ ∃ p, p < size ∧ (run (geom size) steps).page p = (epoch + k') % 7) ∧
      ∃ fuel rounds p,
        nextBlkno (geom size) (run (geom size) steps) 1 loc fuel rounds epoch epoch =
          some (p, (epoch + k) % 7) ∧
        p < size ∧ (run (geom size) steps).page p = (epoch + k) % 7 := by
  obtain ⟨p, hp, hpl⟩ := hex
  have key : ∀ n, (∃ k, k < n ∧ ∃ p, p < size ∧
      (run (geom size) steps).page p = (epoch + k) % 7) →
      ∃ k, k < n ∧ (∀ k', k' < k → ¬ ∃ p, p < size ∧
        (run (geom size) steps).page p = (epoch + k') % 7) ∧
        ∃ p, p < size ∧ (run (geom size) steps).page p = (epoch + k) % 7 := by
    intro n
    induction n with
    | zero => rintro ⟨k, hk, _⟩; omega
    | succ n ih =>
      rintro ⟨k, hk, hkp⟩
      by_cases h : ∃ k, k < n ∧ ∃ p, p < size ∧ (run (geom size) steps).page p = (epoch + k) % 7
      · obtain ⟨k, h1, h2⟩ := ih h
        exact ⟨k, by omega, h2⟩
      · exact ⟨k, hk, fun k' hk' hh => h ⟨k', by omega, hh⟩, hkp⟩
  obtain ⟨k, hk, hno, hyes⟩ := key 7
    ⟨((run (geom size) steps).page p + 7 - epoch) % 7, by omega, p, hp, by omega⟩
  obtain ⟨fuel, q, hf⟩ := nextBlkno_finds hq hloc k epoch he hno hyes
  exact ⟨k, hk, hno, fuel + 0, 2 * k + 1, q, (hf 0).1, (hf 0).2⟩

/-- The page test of `ucm_next_blkno` (modulo 8) and its mask (modulo 7) agree for
`mask_src = 1`, the only value the code passes, but not for others: with
`mask_src = 3` and epoch 6 the mask asks for levels 6 and 0, the page test for
levels 6 and 7 (free pages). -/
theorem C12_other_masks_disagree :
    nextMask 3 6 0 = true ∧ nextWant 3 6 0 = false ∧
    nextMask 3 6 FREE = false ∧ nextWant 3 6 FREE = true := by decide

/-! ## Cases that meet the hypotheses -/

/-- 300 pages need 20 leaf words, hence one non-leaf level. -/
theorem geom_300 : geom 300 = { size := 300, nonLeaf := 15, total := 35, rootFactor := 225 } := by
  simp [geom, estLoop]

/-- Pages 17 and 299 are occupied; the first gets level 3.  The update of page 299
is still before its leaf word. -/
def sample : List Step :=
  [.change 17 15, .climb 0, .climb 0, .change 17 3, .climb 0, .climb 0, .change 299 15]

theorem initFree_300 (i : Nat) : initFree (geom 300) i =
    if i < 2 then (if i = 0 then 15 else 5) else if i < 15 then 0
    else if i < 35 then 15 else 0 := by
  have leaf : ∀ i, 15 ≤ i → initFree (geom 300) i = if i < 35 then 15 else 0 := by
    intro i hi
    rw [initFree, geom_300]
    dsimp only
    rw [if_neg (by omega)]
    split <;> omega
  by_cases hi : i < 15
  · rw [initFree]
    have e : count15 (fun c => decide (initFree (geom 300) ((i + 1) * 15 + c) ≠ 0)) =
        count15 (fun c => decide ((i + 1) * 15 + c < 35)) := by
      apply count15_congr
      intro c _
      rw [leaf _ (by omega)]
      by_cases h : (i + 1) * 15 + c < 35 <;> simp [h]
    rw [e, geom_300]
    dsimp only
    rw [if_pos hi, if_pos hi]
    have e2 : count15 (fun c => decide ((i + 1) * 15 + c < 35)) =
        count15 (fun c => decide (c < 35 - (i + 1) * 15)) :=
      count15_congr (fun c _ => by rw [decide_eq_decide]; omega)
    rw [e2, count15_lt]
    split <;> (try split) <;> omega
  · rw [leaf i (by omega), if_neg (show ¬ i < 2 by omega), if_neg hi]

theorem init_300 : initState (geom 300) =
    { cnt := fun i l => if l = 7 then (if i < 2 then (if i = 0 then 15 else 5) else if i < 15 then 0
        else if i < 35 then 15 else 0) else 0,
      page := fun _ => 7,
      pend := [] } := by
  unfold initState
  simp only [initFree_300]
  rfl

theorem sample_state :
    (run (geom 300) sample).pend = [{ node := 34, prev := 7, next := 15 }] ∧
    (run (geom 300) sample).page 17 = 3 ∧ (run (geom 300) sample).page 299 = 15 ∧
    (run (geom 300) sample).cnt 16 3 = 1 ∧ (run (geom 300) sample).cnt 0 3 = 1 := by
  unfold run
  rw [init_300, geom_300]
  decide

/-- Hypotheses of `C12_exact_when_quiet` and `C12_next` in a run with an update in
flight: levels 0..6 are quiet everywhere, page 17 has level 3. -/
example : ∃ p, p < 300 ∧ (run (geom 300) sample).page p < 7 :=
  ⟨17, by decide, by rw [sample_state.2.1]; decide⟩

example (l i : Nat) (hl : l < 7) : Quiet (run (geom 300) sample) i l := by
  intro u hu _
  rw [sample_state.1] at hu
  rcases List.mem_singleton.1 hu with rfl
  exact ⟨by show 7 ≠ l; omega, by show 15 ≠ l; omega⟩

/-- Hypothesis of `C12_occupy`: the initial state of any pool. -/
example (size i : Nat) : Quiet (run (geom size) []) i FREE := by
  intro u hu; cases hu

end Verif.Ucm
