import Verif.PagePool.Props

/-!
# C11 for the local page pool

Without a failed reservation the counters are conserved and no allocation fails.
A failed reservation does not give back what it subtracted
(src/utils/page_pool.c:617-627), which breaks C11.
-/

namespace Verif.PagePool

/-- Slots in use. -/
def Local.inUse (s : Local) : Nat := s.slots.count true

structure LInv (size : Nat) (s : Local) : Prop where
  bal : s.avail + total4 s.res + s.inUse = size
  len : s.slots.length = size
  cur : s.cur < size ∨ s.cur = 0

theorem u32_of_nonneg {a : Int} (h : 0 ≤ a) (h2 : a < 4294967296) : (u32 a : Int) = a := by
  unfold u32; omega

theorem u32_neg {a : Int} (h : a < 0) (h2 : -2147483648 ≤ a) :
    (u32 a : Int) = a + 4294967296 := by
  unfold u32; omega

/-! ## Finding a slot -/

theorem findSlot_up {slots : List Bool} {start j : Nat} (hj : slots[j]? = some false)
    (hlt : j < slots.length) : ∀ (fuel i : Nat), i < j → j - i ≤ fuel →
    (start ≤ i ∨ j ≤ start) →
    ∃ k, findSlot slots start fuel i = some k ∧ slots[k]? = some false := by
  intro fuel
  induction fuel with
  | zero => intro i h1 h2; omega
  | succ fuel ih =>
    intro i h1 h2 h3
    have hnw : ¬ i + 1 ≥ slots.length := by omega
    rw [findSlot]
    simp only [if_neg hnw]
    by_cases hs : slots[i + 1]? = some false
    · rw [if_pos hs]; exact ⟨_, rfl, hs⟩
    · rw [if_neg hs]
      have hne : i + 1 ≠ j := fun h => hs (by rw [h]; exact hj)
      rw [if_neg (by omega)]
      exact ih (i + 1) (by omega) (by omega) (by omega)

theorem findSlot_wrap {slots : List Bool} {start j : Nat} (hj : slots[j]? = some false)
    (hlt : j < slots.length) (hjs : j ≤ start) : ∀ (fuel i : Nat), start ≤ i →
    i < slots.length → slots.length - i + j ≤ fuel →
    ∃ k, findSlot slots start fuel i = some k ∧ slots[k]? = some false := by
  intro fuel
  induction fuel with
  | zero => intro i h1 h2 h3; omega
  | succ fuel ih =>
    intro i h1 h2 h3
    rw [findSlot]
    by_cases hw : i + 1 ≥ slots.length
    · simp only [if_pos hw]
      by_cases hs : slots[0]? = some false
      · rw [if_pos hs]; exact ⟨_, rfl, hs⟩
      · rw [if_neg hs]
        have hne : j ≠ 0 := fun h => hs (by rw [← h]; exact hj)
        rw [if_neg (by omega)]
        exact findSlot_up hj hlt fuel 0 (by omega) (by omega) (Or.inr hjs)
    · simp only [if_neg hw]
      by_cases hs : slots[i + 1]? = some false
      · rw [if_pos hs]; exact ⟨_, rfl, hs⟩
      · rw [if_neg hs, if_neg (by omega)]
        exact ih (i + 1) (by omega) (by omega) (by omega)

theorem findSlot_finds {slots : List Bool} {start j : Nat} (hs : start < slots.length)
    (hj : slots[j]? = some false) :
    ∃ k, findSlot slots start (slots.length + 1) start = some k ∧ slots[k]? = some false := by
  have hlt : j < slots.length := by
    rcases Nat.lt_or_ge j slots.length with h | h
    · exact h
    · rw [List.getElem?_eq_none h] at hj; cases hj
  by_cases h : j ≤ start
  · exact findSlot_wrap hj hlt h _ _ (Nat.le_refl _) hs (by omega)
  · exact findSlot_up hj hlt _ _ (by omega) (by omega) (Or.inl (Nat.le_refl _))

theorem getElem?_lt {α : Type} {l : List α} {k : Nat} {x : α} (h : l[k]? = some x) :
    k < l.length := by
  rcases Nat.lt_or_ge k l.length with h' | h'
  · exact h'
  · rw [List.getElem?_eq_none h'] at h; cases h

theorem exists_free {l : List Bool} (h : l.count true < l.length) : ∃ j : Nat, l[j]? = some false := by
  have : 0 < l.count false := by
    have h5 : l.count true + l.count false = l.length := by
      clear h
      induction l with
      | nil => rfl
      | cons a l ih => cases a <;> simp <;> omega
    omega
  exact List.getElem?_of_mem (List.count_pos_iff.1 this)

/-! ## Steps keep the invariant -/

/-- The state inside the loop: `a` is the signed value of `avail`. -/
structure LLoop (size n : Nat) (a : Int) (s : Local) : Prop where
  eq : s.avail = u32 a
  lo : -2147483648 ≤ a
  bal : a + n + total4 s.res + s.inUse = size
  len : s.slots.length = size
  cur : s.cur < size ∨ s.cur = 0

theorem free_slots (s : Local) (i : Nat) : (s.free i).res = s.res ∧ (s.free i).cur = s.cur ∧
    (s.free i).slots.length = s.slots.length := by
  unfold Local.free
  split <;> simp

theorem reserveLoop_ok {size : Nat} (hsz : size < 2147483648) {kind n : Nat} (hk : kind < KINDS) :
    ∀ (evict : List Nat) (a : Int) (s s' : Local), LLoop size n a s →
    reserveLoop s kind n evict = .ok s' →
    LInv size s' ∧ s'.res kind = s.res kind + n ∧ ∀ k, k ≠ kind → s'.res k = s.res k := by
  intro evict
  have done : ∀ (a : Int) (s : Local), LLoop size n a s → negative s.avail = false →
      LInv size { s with res := fun k => if k = kind then s.res k + n else s.res k } := by
    intro a s h hn
    have hlt : a < 2147483648 := by have := h.bal; omega
    have hnn : 0 ≤ a := by
      rcases Int.lt_or_le a 0 with h' | h'
      · have := u32_neg h' h.lo
        have := h.lo
        unfold negative at hn
        rw [decide_eq_false_iff_not, h.eq] at hn
        omega
      · exact h'
    have e := u32_of_nonneg hnn (by omega)
    refine ⟨?_, h.len, h.cur⟩
    show s.avail + total4 _ + s.slots.count true = size
    rw [total4_add hk, h.eq]
    have := h.bal
    unfold Local.inUse at this
    omega
  induction evict with
  | nil =>
    intro a s s' h hr
    unfold reserveLoop at hr
    split at hr
    · cases hr
    · rename_i hn
      cases hr
      refine ⟨done a s h (by simpa using hn), ?_, ?_⟩
      · simp
      · intro k hkne; simp [hkne]
  | cons i evict ih =>
    intro a s s' h hr
    unfold reserveLoop at hr
    split at hr
    · rename_i hn
      obtain ⟨f1, f2, f3⟩ := free_slots s i
      by_cases hu : s.slots[i]? = some true
      · have hfr : s.free i =
            { s with slots := s.slots.set i false, avail := u32 (s.avail + 1) } := by
          unfold Local.free; rw [if_pos hu]
        have hc := count_set_false _ _ hu
        have hl : LLoop size n (a + 1) (s.free i) := by
          rw [hfr]
          refine ⟨?_, by have := h.lo; omega, ?_, by simpa using h.len, h.cur⟩
          · show u32 (s.avail + 1) = u32 (a + 1)
            rw [h.eq]
            unfold u32
            omega
          · have := h.bal
            simp only [Local.inUse] at this ⊢
            omega
        have := ih (a + 1) _ s' hl hr
        rw [f1] at this
        exact this
      · have hfr : s.free i = s := by unfold Local.free; rw [if_neg hu]
        rw [hfr] at hr
        exact ih a s s' h hr
    · rename_i hn
      cases hr
      refine ⟨done a s h (by simpa using hn), ?_, ?_⟩
      · simp
      · intro k hkne; simp [hkne]

/-- Counts passed to the pool fit in `int` (include/utils/page_pool.h:93). -/
def LOp.small : LOp → Prop
  | .reserve _ count _ => count < 2147483648
  | _ => True

theorem lstep_inv {size : Nat} (hsz : size < 2147483648) {s : Local} (inv : LInv size s) (o : LOp)
    (ho : o.small) : lstep s o ≠ .undef ∧ ∀ s', lstep s o = .ok s' → LInv size s' := by
  have hb := inv.bal
  cases o with
  | reserve kind count evict =>
    unfold lstep
    dsimp only
    by_cases hk : kind < KINDS
    · rw [if_pos hk]
      unfold Local.reserve
      by_cases hz : needed s.res kind count = 0
      · rw [if_pos hz]
        exact ⟨(by intro h; cases h), (by intro s' h; cases h; exact inv)⟩
      · rw [if_neg hz]
        have hsmall : needed s.res kind count < 2147483648 := by
          unfold needed; unfold LOp.small at ho; omega
        have hl : LLoop size (needed s.res kind count)
            ((s.avail : Int) - needed s.res kind count)
            { s with avail := u32 ((s.avail : Int) - needed s.res kind count) } := by
          refine ⟨rfl, by omega, ?_, inv.len, inv.cur⟩
          unfold Local.inUse at hb ⊢
          dsimp only
          omega
        constructor
        · have : ∀ (evict : List Nat) (s : Local) (n : Nat), reserveLoop s kind n evict ≠ .undef := by
            intro evict
            induction evict with
            | nil => intro s n; unfold reserveLoop; split <;> (intro h; cases h)
            | cons i evict ih =>
              intro s n
              unfold reserveLoop
              split
              · exact ih _ _
              · intro h; cases h
          exact this _ _ _
        · intro s' h
          exact (reserveLoop_ok hsz hk evict _ _ s' hl h).1
    · rw [if_neg hk]
      exact ⟨(by intro h; cases h), (by intro s' h; cases h; exact inv)⟩
  | release mask =>
    refine ⟨(by intro h; cases h), ?_⟩
    intro s' h
    cases h
    have h4 := total4_release s.res mask
    have e := u32_of_nonneg (a := (s.avail : Int) + masked4 mask s.res) (by omega) (by omega)
    refine ⟨?_, inv.len, inv.cur⟩
    show u32 ((s.avail : Int) + masked4 mask s.res) +
      total4 (fun k => if mask.testBit k ∧ k < KINDS then 0 else s.res k) + s.slots.count true = size
    unfold Local.inUse at hb
    omega
  | alloc kind =>
    unfold lstep
    dsimp only
    by_cases hk : kind < KINDS ∧ 0 < s.res kind
    · rw [if_pos hk]
      have h4 := total4_dec hk.1 hk.2
      have hlt : s.slots.count true < s.slots.length := by
        rw [inv.len]; unfold Local.inUse at hb; omega
      obtain ⟨j, hj⟩ := exists_free hlt
      have hcur : s.cur < s.slots.length := by
        rcases inv.cur with h | h
        · rw [inv.len]; exact h
        · rw [h]; omega
      obtain ⟨k, hf, hfree⟩ := findSlot_finds hcur hj
      unfold Local.alloc
      rw [hf]
      refine ⟨(by intro h; cases h), ?_⟩
      intro s' h
      cases h
      have hc := count_set_true _ _ hfree
      have hklt := getElem?_lt hfree
      refine ⟨?_, by simpa using inv.len, Or.inl ?_⟩
      · unfold Local.inUse at hb ⊢
        dsimp only
        omega
      · show k < size
        rw [← inv.len]; exact hklt
    · rw [if_neg hk]
      exact ⟨(by intro h; cases h), (by intro s' h; cases h; exact inv)⟩
  | free i =>
    refine ⟨(by intro h; cases h), ?_⟩
    intro s' h
    cases h
    unfold Local.free
    split
    · rename_i hu
      have hc := count_set_false _ _ hu
      have e := u32_of_nonneg (a := (s.avail : Int) + 1) (by omega) (by omega)
      refine ⟨?_, by simpa using inv.len, inv.cur⟩
      unfold Local.inUse at hb ⊢
      dsimp only
      omega
    · exact inv

theorem lrun_errs : ∀ (ops : List LOp) (s s' : Local) (e e' : Nat),
    lrun s e ops = some (s', e') → e ≤ e' := by
  intro ops
  induction ops with
  | nil => intro s s' e e' h; cases h; exact Nat.le_refl _
  | cons o ops ih =>
    intro s s' e e' h
    unfold lrun at h
    split at h
    · exact ih _ _ _ _ h
    · have := ih _ _ _ _ h; omega
    · cases h

/-! ## C11 for the local pool -/

/-- The full claim for the local pool: whatever calls a backend makes (some of which
may fail with an error), no call runs into undefined behaviour and pages available
+ reserved + in use = pool size. -/
def C11_local_statement : Prop :=
  ∀ (size : Nat) (ops : List LOp), size < 2147483648 → (∀ o ∈ ops, o.small) →
    ∃ s errs, lrun (Local.init size) 0 ops = some (s, errs) ∧
      s.avail + total4 s.res + s.inUse = size

/-- **C11**, local pool, the part that holds: as long as no reservation has failed,
no allocation from a reservation fails and the counters are conserved.  Missing: a
failed reservation (see `C11_local_violated`). -/
theorem C11_local_partial (size : Nat) (ops : List LOp) (hsz : size < 2147483648)
    (hsm : ∀ o ∈ ops, o.small) :
    (∀ s errs, lrun (Local.init size) 0 ops = some (s, errs) → errs = 0 →
      s.avail + total4 s.res + s.inUse = size) ∧
    (lrun (Local.init size) 0 ops = none →
      ∃ pre s errs, pre <+: ops ∧ lrun (Local.init size) 0 pre = some (s, errs) ∧
        0 < errs) := by
  have hinit : LInv size (Local.init size) := by
    refine ⟨?_, ?_, Or.inr rfl⟩
    · simp [Local.init, Local.inUse, total4, List.count_replicate]
    · simp [Local.init]
  generalize Local.init size = s0 at hinit
  revert s0
  induction ops with
  | nil =>
    intro s0 inv
    constructor
    · intro s errs h _; cases h; exact inv.bal
    · intro h; cases h
  | cons o ops ih =>
    intro s0 inv
    obtain ⟨hnu, hok⟩ := lstep_inv hsz inv o (hsm o (List.mem_cons_self ..))
    have ih := ih (fun o ho => hsm o (List.mem_cons_of_mem _ ho))
    cases hst : lstep s0 o with
    | ok s1 =>
      have := ih s1 (hok s1 hst)
      constructor
      · intro s errs h he
        unfold lrun at h
        rw [hst] at h
        exact this.1 s errs h he
      · intro h
        unfold lrun at h
        rw [hst] at h
        obtain ⟨pre, s, errs, h1, h2, h3⟩ := this.2 h
        refine ⟨o :: pre, s, errs, ?_, ?_, h3⟩
        · exact List.cons_prefix_cons.2 ⟨rfl, h1⟩
        · unfold lrun; rw [hst]; exact h2
    | error s1 =>
      constructor
      · intro s errs h he
        unfold lrun at h
        rw [hst] at h
        have := lrun_errs _ _ _ _ _ h
        omega
      · intro _
        refine ⟨[o], s1, 1, ?_, ?_, by decide⟩
        · exact List.cons_prefix_cons.2 ⟨rfl, List.nil_prefix⟩
        · unfold lrun; rw [hst]; rfl
    | undef => exact absurd hst hnu

/-- Two pages, both allocated; a reservation of one more fails because nothing can
be evicted; then both pages are freed. -/
def leak : List LOp :=
  [.reserve 1 2 [], .alloc 1, .alloc 1, .reserve 1 2 [], .free 0, .free 1]

/-- What the pool looks like after `leak`: everything is free, but only 0 pages are
counted as available and none as reserved. -/
theorem leak_state : (lrun (Local.init 2) 0 leak).map
    (fun r => (r.1.avail, r.1.slots, total4 r.1.res, r.2)) = some (0, [false, false], 0, 1) := by
  decide

/-- **C11 is violated** by the local pool: after one failed reservation of two pages
nothing is in use and nothing is reserved, yet 0 of 2 pages are available. -/
theorem C11_local_violated : ¬ C11_local_statement := by
  intro h
  obtain ⟨s, errs, h1, h2⟩ := h 2 leak (by decide) (by
    intro o ho
    simp only [leak, List.mem_cons, List.not_mem_nil, or_false] at ho
    rcases ho with h | h | h | h | h | h <;> subst h <;> simp [LOp.small])
  have h3 := leak_state
  rw [h1] at h3
  simp only [Option.map_some, Option.some.injEq, Prod.mk.injEq] at h3
  unfold Local.inUse at h2
  rw [h3.1, h3.2.1, h3.2.2.1] at h2
  exact absurd h2 (by decide)

/-- The consequence for the user: from then on every reservation fails, though the
whole pool is free (no slot can be evicted, so whatever maintenance tries the
counter stays negative). -/
theorem C11_local_exhausted_for_ever (kind : Nat) (hk : kind < KINDS) (evict : List Nat) :
    ∃ s, lrun (Local.init 2) 0 leak = some (s, 1) ∧ s.slots = [false, false] ∧
      ∃ s', lstep s (.reserve kind 1 evict) = .error s' := by
  have h3 := leak_state
  cases hr : lrun (Local.init 2) 0 leak with
  | none => rw [hr] at h3; cases h3
  | some r =>
    obtain ⟨s, errs⟩ := r
    rw [hr] at h3
    simp only [Option.map_some, Option.some.injEq, Prod.mk.injEq] at h3
    obtain ⟨ha, hs, ht, he⟩ := h3
    refine ⟨s, by rw [he], hs, ?_⟩
    have hz : s.res kind = 0 := by
      unfold total4 at ht
      unfold KINDS at hk
      have : kind = 0 ∨ kind = 1 ∨ kind = 2 ∨ kind = 3 := by omega
      rcases this with h | h | h | h <;> subst h <;> omega
    unfold lstep Local.reserve
    dsimp only
    rw [if_pos hk]
    unfold needed
    rw [hz, if_neg (by decide), ha]
    have hfree : ∀ (t : Local) (i : Nat), t.slots = [false, false] → t.free i = t := by
      intro t i hts
      unfold Local.free
      rw [hts, if_neg]
      rcases i with _ | _ | i <;> simp
    have key : ∀ (evict : List Nat) (t : Local), t.slots = [false, false] →
        t.avail = 4294967295 → ∃ s', reserveLoop t kind 1 evict = .error s' := by
      intro evict
      induction evict with
      | nil =>
        intro t h1 h2
        refine ⟨t, ?_⟩
        unfold reserveLoop
        rw [h2]; rfl
      | cons i evict ih =>
        intro t h1 h2
        unfold reserveLoop
        rw [hfree t i h1]
        have : negative t.avail = true := by rw [h2]; decide
        rw [if_pos this]
        exact ih t h1 h2
    exact key evict _ hs (by show u32 (0 - 1) = _; decide)

/-- A run without a failed reservation that evicts a page (`C11_local_partial`):
two pages in use, then a reservation of one more evicts slot 1. -/
example : (lrun (Local.init 2) 0
    [.reserve 1 2 [], .alloc 1, .alloc 1, .reserve 2 1 [1], .alloc 2, .release 15]).map
    (fun r => (r.1.avail, r.1.slots, total4 r.1.res, r.2)) = some (0, [true, true], 0, 0) := by
  decide

end Verif.PagePool
