import Verif.Ctid.Model

/-! # Row identifiers and identifiers for bridged indexes: properties -/

namespace Verif.Ctid

/-- The order of identifiers. -/
def Before (a b : Tid) : Prop := a.1 < b.1 ∨ (a.1 = b.1 ∧ a.2 < b.2)

/-- Identifiers that `fromSeq` can give. -/
def Valid (M : Nat) (t : Tid) : Prop := 1 ≤ t.2 ∧ t.2 ≤ M - 1 ∧ t.1 < 2 ^ 32

/-- The conditions on `MaxOffsetNumber`. -/
def GoodM (M : Nat) : Prop := 2 ≤ M ∧ M ≤ 2 ^ 16

theorem fromSeq_eq {M n : Nat} (hM : GoodM M) (hn : n / (M - 1) < 2 ^ 32) :
    fromSeq M n = (n / (M - 1), n % (M - 1) + 1) := by
  have h1 : n % (M - 1) < M - 1 := Nat.mod_lt _ (by have := hM.1; omega)
  have h2 := hM.2
  unfold fromSeq
  rw [Nat.mod_eq_of_lt hn, Nat.mod_eq_of_lt (by omega)]

theorem div_mod_lt {k a b : Nat} (h : a < b) :
    a / k < b / k ∨ (a / k = b / k ∧ a % k < b % k) := by
  have h1 : a / k ≤ b / k := Nat.div_le_div_right (Nat.le_of_lt h)
  rcases Nat.lt_or_eq_of_le h1 with h2 | h2
  · exact Or.inl h2
  · refine Or.inr ⟨h2, ?_⟩
    have ha := Nat.div_add_mod a k
    have hb := Nat.div_add_mod b k
    rw [h2] at ha
    omega

theorem fromSeq_lt {M a b : Nat} (hM : GoodM M) (hb : b / (M - 1) < 2 ^ 32) (h : a < b) :
    Before (fromSeq M a) (fromSeq M b) := by
  have h1 : a / (M - 1) ≤ b / (M - 1) := Nat.div_le_div_right (Nat.le_of_lt h)
  rw [fromSeq_eq hM hb, fromSeq_eq hM (by omega)]
  rcases div_mod_lt (k := M - 1) h with h2 | h2
  · exact Or.inl h2
  · exact Or.inr ⟨h2.1, Nat.succ_lt_succ h2.2⟩

theorem fromSeq_toSeq {M : Nat} {t : Tid} (hM : GoodM M) (ht : Valid M t) :
    fromSeq M (toSeq M t) = t := by
  obtain ⟨h1, h2, h3⟩ := ht
  have hM1 := hM.1
  have e1 : toSeq M t / (M - 1) = t.1 := by
    unfold toSeq
    rw [Nat.mul_comm, Nat.mul_add_div (by omega), Nat.div_eq_of_lt (by omega), Nat.add_zero]
  have e2 : toSeq M t % (M - 1) = t.2 - 1 := by
    unfold toSeq
    rw [Nat.mul_comm, Nat.mul_add_mod, Nat.mod_eq_of_lt (by omega)]
  rw [fromSeq_eq hM (by omega), e1, e2]
  apply Prod.ext
  · rfl
  · show t.2 - 1 + 1 = t.2
    omega

/-- The invariant: what was given out or noted is below the counter. -/
structure Inv (M : Nat) (s : St) : Prop where
  issued : ∀ t ∈ s.issued, ∃ n, n < s.ctr ∧ t = fromSeq M n
  order : ∃ ns : List Nat, s.issued = ns.map (fromSeq M) ∧ ns.Pairwise (fun a b => b < a) ∧
    ∀ n ∈ ns, n < s.ctr
  noted : ∀ t ∈ s.noted, Valid M t ∧ toSeq M t < s.ctr
  cas : ∀ p t, (s.pcs p = .read t ∨ ∃ old, s.pcs p = .cas t old) → Valid M t
  old : ∀ p t old, s.pcs p = .cas t old → old < toSeq M t + 1

theorem step_inv {M : Nat} {s : St} (h : Inv M s) (x : Step)
    (hx : ∀ p t, x = .start p t → Valid M t) : Inv M (step M s x) := by
  cases x with
  | get =>
    obtain ⟨ns, h1, h2, h3⟩ := h.order
    refine ⟨?_, ⟨s.ctr :: ns, ?_, ?_, ?_⟩, ?_, h.cas, h.old⟩
    · intro t ht
      rcases List.mem_cons.mp ht with e | e
      · exact ⟨s.ctr, Nat.lt_succ_self _, e⟩
      · obtain ⟨n, hn, e⟩ := h.issued t e
        exact ⟨n, Nat.lt_succ_of_lt hn, e⟩
    · simp [step, h1]
    · exact List.pairwise_cons.mpr ⟨h3, h2⟩
    · intro n hn
      rcases List.mem_cons.mp hn with e | e
      · rw [e]; exact Nat.lt_succ_self _
      · exact Nat.lt_succ_of_lt (h3 n e)
    · intro t ht
      exact ⟨(h.noted t ht).1, Nat.lt_succ_of_lt (h.noted t ht).2⟩
  | start p t =>
    refine ⟨h.issued, h.order, h.noted, ?_, ?_⟩
    · intro q u hu
      simp only [step, setPc] at hu
      by_cases e : q = p
      · simp only [if_pos e] at hu
        rcases hu with hu | ⟨_, hu⟩
        · injection hu with hu
          exact hu ▸ hx p t rfl
        · exact absurd hu (by simp)
      · simp only [if_neg e] at hu
        exact h.cas q u hu
    · intro q u o hu
      simp only [step, setPc] at hu
      by_cases e : q = p
      · simp only [if_pos e] at hu
        exact absurd hu (by simp)
      · simp only [if_neg e] at hu
        exact h.old q u o hu
  | go p =>
    unfold step
    simp only []
    have idle : ∀ q u, (setPc s.pcs p .idle q = .read u ∨ ∃ old, setPc s.pcs p .idle q = .cas u old) →
        Valid M u := by
      intro q u hu
      simp only [setPc] at hu
      by_cases e : q = p
      · simp only [if_pos e] at hu
        rcases hu with hu | ⟨_, hu⟩ <;> exact absurd hu (by simp)
      · simp only [if_neg e] at hu
        exact h.cas q u hu
    have idleOld : ∀ q u o, setPc s.pcs p .idle q = .cas u o → o < toSeq M u + 1 := by
      intro q u o hu
      simp only [setPc] at hu
      by_cases e : q = p
      · simp only [if_pos e] at hu
        exact absurd hu (by simp)
      · simp only [if_neg e] at hu
        exact h.old q u o hu
    cases hp : s.pcs p with
    | idle => exact h
    | read t =>
      have hv := h.cas p t (Or.inl hp)
      simp only []
      by_cases hc : s.ctr ≥ toSeq M t + 1
      · rw [if_pos hc]
        refine ⟨h.issued, h.order, ?_, idle, idleOld⟩
        intro u hu
        rcases List.mem_cons.mp hu with e | e
        · rw [e]; exact ⟨hv, hc⟩
        · exact h.noted u e
      · rw [if_neg hc]
        refine ⟨h.issued, h.order, h.noted, ?_, ?_⟩
        · intro q u hu
          simp only [setPc] at hu
          by_cases e : q = p
          · simp only [if_pos e] at hu
            rcases hu with hu | ⟨_, hu⟩
            · exact absurd hu (by simp)
            · injection hu with hu _
              exact hu ▸ hv
          · simp only [if_neg e] at hu
            exact h.cas q u hu
        · intro q u o hu
          simp only [setPc] at hu
          by_cases e : q = p
          · simp only [if_pos e] at hu
            injection hu with h1 h2
            subst h1 h2
            omega
          · simp only [if_neg e] at hu
            exact h.old q u o hu
    | cas t old =>
      have hv := h.cas p t (Or.inr ⟨old, hp⟩)
      have ho := h.old p t old hp
      simp only []
      by_cases hc : s.ctr = old
      · rw [if_pos hc]
        obtain ⟨ns, h1, h2, h3⟩ := h.order
        refine ⟨?_, ⟨ns, h1, h2, ?_⟩, ?_, idle, idleOld⟩
        · intro u hu
          obtain ⟨n, hn, e⟩ := h.issued u hu
          exact ⟨n, by show n < toSeq M t + 1; omega, e⟩
        · intro n hn
          have := h3 n hn
          show n < toSeq M t + 1
          omega
        · intro u hu
          rcases List.mem_cons.mp hu with e | e
          · rw [e]; exact ⟨hv, Nat.lt_succ_self _⟩
          · have := (h.noted u e).2
            exact ⟨(h.noted u e).1, by show toSeq M u < toSeq M t + 1; omega⟩
      · rw [if_neg hc]
        refine ⟨h.issued, h.order, h.noted, ?_, ?_⟩
        · intro q u hu
          simp only [setPc] at hu
          by_cases e : q = p
          · simp only [if_pos e] at hu
            rcases hu with hu | ⟨_, hu⟩
            · injection hu with hu
              exact hu ▸ hv
            · exact absurd hu (by simp)
          · simp only [if_neg e] at hu
            exact h.cas q u hu
        · intro q u o hu
          simp only [setPc] at hu
          by_cases e : q = p
          · simp only [if_pos e] at hu
            exact absurd hu (by simp)
          · simp only [if_neg e] at hu
            exact h.old q u o hu

theorem exec_inv {M : Nat} (l : List Step) : ∀ s, Inv M s → (∀ p t, Step.start p t ∈ l → Valid M t) →
    Inv M (exec M s l) := by
  induction l with
  | nil => intro s h _; exact h
  | cons x l ih =>
    intro s h hl
    exact ih _ (step_inv h x fun p t e => hl p t (by simp [e])) fun p t e => hl p t (by simp [e])

/-- **C147**: row identifiers given out by any processes ascend, and each new one is behind all given
out before, behind all rows there were at the checkpoint, and behind all rows replayed since; for all
interleavings, until the 2^32 blocks are used up. -/
theorem C147 (M : Nat) (hM : GoodM M) (c : Nat) (rows : List Tid) (l : List Step)
    (hr : ∀ t ∈ rows, ∃ n, n < c ∧ t = fromSeq M n ∧ n / (M - 1) < 2 ^ 32)
    (hl : ∀ p t, Step.start p t ∈ l → Valid M t) :
    let s := exec M ⟨c, fun _ => .idle, [], rows⟩ l
    s.ctr / (M - 1) < 2 ^ 32 →
      s.issued.Pairwise (fun a b => Before b a) ∧
      ∃ t, (step M s .get).issued = t :: s.issued ∧ ∀ u ∈ s.issued ++ s.noted, Before u t := by
  intro s hs
  have hM1 := hM.1
  have h0 : Inv M ⟨c, fun _ => .idle, [], rows⟩ := by
    refine ⟨by simp, ⟨[], rfl, by simp, by simp⟩, ?_, by simp, by simp⟩
    intro t ht
    obtain ⟨n, hn, rfl, hn2⟩ := hr t ht
    have hlt : n % (M - 1) < M - 1 := Nat.mod_lt _ (by omega)
    rw [fromSeq_eq hM hn2]
    refine ⟨⟨by simp, by simp only []; omega, hn2⟩, ?_⟩
    show n / (M - 1) * (M - 1) + (n % (M - 1) + 1 - 1) < c
    have := Nat.div_add_mod n (M - 1)
    rw [Nat.mul_comm] at this
    omega
  have h := exec_inv l _ h0 hl
  change Inv M s at h
  obtain ⟨ns, h1, h2, h3⟩ := h.order
  refine ⟨?_, fromSeq M s.ctr, rfl, ?_⟩
  · rw [h1, List.pairwise_map]
    refine List.Pairwise.imp_of_mem ?_ h2
    intro a b ha _ hab
    have : a / (M - 1) ≤ s.ctr / (M - 1) := Nat.div_le_div_right (Nat.le_of_lt (h3 a ha))
    exact fromSeq_lt hM (by omega) hab
  · intro u hu
    rcases List.mem_append.mp hu with e | e
    · obtain ⟨n, hn, rfl⟩ := h.issued u e
      exact fromSeq_lt hM hs hn
    · obtain ⟨hv, hn⟩ := h.noted u e
      have := fromSeq_lt hM hs hn
      rwa [fromSeq_toSeq hM hv] at this

/-- Two processes replay rows while a third gives out identifiers; the compare-and-swap of the first
fails and is tried again. -/
theorem C147_case :
    let l : List Step := [.start 0 (3, 7), .go 0, .start 1 (3, 2), .get, .go 1, .go 0, .go 1, .go 0, .go 0, .get]
    let s := exec 2048 ⟨2047, fun _ => .idle, [], [(0, 2047), (0, 1)]⟩ l
    (∀ t ∈ [((0, 2047) : Tid), (0, 1)], ∃ n, n < 2047 ∧ t = fromSeq 2048 n ∧ n / (2048 - 1) < 2 ^ 32) ∧
      s.issued = [(3, 8), (1, 1)] ∧ s.noted = [(3, 7), (3, 2), (0, 2047), (0, 1)] ∧ s.ctr = 6149 := by
  refine ⟨?_, by decide, by decide, by decide⟩
  intro t ht
  rcases List.mem_cons.mp ht with e | e
  · exact ⟨2046, by decide, by rw [e]; decide, by decide⟩
  · exact ⟨0, by decide, by rw [List.mem_singleton.mp e]; decide, by decide⟩

theorem bridgeTid_inj {H B a b : Nat} (hb : overflow H B b = false) (h : a < b) :
    bridgeTid H B a ≠ bridgeTid H B b := by
  intro e
  unfold overflow at hb
  rw [decide_eq_false_iff_not] at hb
  have h1 : a / H ≤ b / H := Nat.div_le_div_right (Nat.le_of_lt h)
  unfold bridgeTid at e
  rw [Nat.mod_eq_of_lt (show b / H < B by omega), Nat.mod_eq_of_lt (show a / H < B by omega)] at e
  injection e with e1 e2
  rcases div_mod_lt (k := H) h with h2 | h2 <;> omega

/-- Each crash finds the counter as it was at the last checkpoint. -/
def Calm (H B : Nat) : Br → List Op → Prop
  | _, [] => True
  | s, x :: l => (x = .crash → s.ctr = s.chk) ∧ Calm H B (bstep H B s x) l

theorem bexec_ok {H B : Nat} (l : List Op) : ∀ s : Br, Calm H B s l → s.failed = false →
    (∀ t ∈ s.entries, ∃ n, n < s.ctr ∧ t = bridgeTid H B n) → (bexec H B s l).failed = false := by
  induction l with
  | nil => intro s _ h _; exact h
  | cons x l ih =>
    intro s hc hf hi
    refine ih _ hc.2 ?_ ?_
    · cases x with
      | attempt =>
        unfold bstep
        simp only []
        by_cases hm : bridgeTid H B s.ctr ∈ s.entries
        · rw [if_pos hm]
          obtain ⟨n, hn, e⟩ := hi _ hm
          show (s.failed || !overflow H B s.ctr) = false
          cases ho : overflow H B s.ctr
          · exact absurd e.symm (bridgeTid_inj ho hn)
          · simp [hf]
        · rw [if_neg hm]
          exact hf
      | erase t => exact hf
      | checkpoint => exact hf
      | crash => exact hf
    · cases x with
      | attempt =>
        unfold bstep
        simp only []
        by_cases hm : bridgeTid H B s.ctr ∈ s.entries
        · rw [if_pos hm]
          intro t ht
          obtain ⟨n, hn, e⟩ := hi t ht
          exact ⟨n, Nat.lt_succ_of_lt hn, e⟩
        · rw [if_neg hm]
          intro t ht
          rcases List.mem_cons.mp ht with e | e
          · exact ⟨s.ctr, Nat.lt_succ_self _, e⟩
          · obtain ⟨n, hn, e⟩ := hi t e
            exact ⟨n, Nat.lt_succ_of_lt hn, e⟩
      | erase t =>
        intro u hu
        exact hi u (List.mem_filter.mp hu).1
      | checkpoint => exact hi
      | crash =>
        intro t ht
        obtain ⟨n, hn, e⟩ := hi t ht
        exact ⟨n, by show n < s.chk; rw [← hc.1 rfl]; exact hn, e⟩

/-- **C148**, in part: no INSERT fails because its identifier for the bridged indexes is in use, if no
identifier was given out between the last checkpoint and a crash.  Missing: crashes after others, where
it is false (`C148_violated`). -/
theorem C148_partial (H B : Nat) (l : List Op) (hc : Calm H B ⟨0, 0, [], false⟩ l) :
    (bexec H B ⟨0, 0, [], false⟩ l).failed = false :=
  bexec_ok l _ hc rfl (by simp)

/-- Identifiers of two blocks of three, over the overflow and a crash: the third attempt after it finds
an identifier in use and goes on. -/
theorem C148_partial_case :
    let l : List Op := [.attempt, .attempt, .attempt, .attempt, .checkpoint, .crash, .attempt, .attempt,
      .erase (0, 2), .attempt, .attempt]
    Calm 3 2 ⟨0, 0, [], false⟩ l ∧
      bexec 3 2 ⟨0, 0, [], false⟩ l =
        ⟨8, 4, [(0, 2), (1, 3), (1, 2), (1, 1), (0, 3), (0, 1)], false⟩ := by
  refine ⟨?_, by decide⟩
  simp [Calm, bstep, bridgeTid, overflow]

/-- After a checkpoint a row is inserted; the server crashes and recovers; the next INSERT fails with a
duplicate, whatever the sizes. -/
theorem C148_violated (H B : Nat) (hH : 0 < H) (hB : 0 < B) :
    (bexec H B ⟨0, 0, [], false⟩ [.checkpoint, .attempt, .crash, .attempt]).failed = true := by
  simp [bexec, bstep, bridgeTid, overflow]
  omega

/-- The same from any state: as many INSERTs fail, one after the other, as rows were inserted since the
checkpoint, as long as these are in the bridge index and the counter did not overflow. -/
theorem C148_violated_all (H B : Nat) (s : Br) (k : Nat)
    (hk : ∀ i, i < k → bridgeTid H B (s.chk + i) ∈ s.entries ∧ overflow H B (s.chk + i) = false) :
    ∀ j, j ≤ k → bexec H B s (.crash :: List.replicate j .attempt) =
      { s with ctr := s.chk + j, failed := s.failed || decide (0 < j) } := by
  intro j
  induction j with
  | zero => intro _; simp [bexec, bstep]
  | succ j ih =>
    intro hj
    have h1 := ih (by omega)
    obtain ⟨hm, ho⟩ := hk j (by omega)
    rw [List.replicate_succ']
    unfold bexec at h1 ⊢
    rw [← List.cons_append, List.foldl_append, h1]
    simp only [List.foldl_cons, List.foldl_nil, bstep, hm, if_true, ho]
    simp [Nat.add_assoc]

end Verif.Ctid
