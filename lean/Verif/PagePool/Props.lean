import Verif.PagePool.Model

/-!
# C11: page reservations are conserved

English claim: pages reserved by a backend plus pages available plus pages in use
always equal the pool size; a failed reservation leaves the counters unchanged, a
release returns exactly what was reserved and not used, and an allocation from a
reservation never fails.
-/

set_option linter.unusedSimpArgs false

namespace Verif.PagePool

/-! ## Specification (shared pool) -/

/-- Pages in use. -/
def Pool.inUse (s : Pool) : Nat := s.used.count true

/-- Pages reserved by all processes together. -/
def Pool.reserved (s : Pool) : Nat := (s.procs.map (fun p => total4 p.res)).sum

/-- No process is inside a pool function. -/
def Pool.atRest (s : Pool) : Prop := ∀ p ∈ s.procs, p.pc = .idle

/-- Processes inside `o_ppool_alloc_page`. -/
def Pool.allocating (s : Pool) : Nat := s.procs.countP (fun p => decide (p.pc = .alloc))

/-! ## Invariant -/

/-- What a process holds on behalf of its current call. -/
def Pc.debt : Pc → Nat
  | .idle => 0
  | .back n => n
  | .alloc => 1
  | .freed => 1

/-- The part of the debt that is missing from `avail` only for a moment. -/
def Pc.owed : Pc → Nat
  | .back n => n
  | _ => 0

theorem debt_idle : Pc.debt .idle = 0 := rfl
theorem debt_back (n : Nat) : Pc.debt (.back n) = n := rfl
theorem debt_alloc : Pc.debt .alloc = 1 := rfl
theorem debt_freed : Pc.debt .freed = 1 := rfl
theorem owed_idle : Pc.owed .idle = 0 := rfl
theorem owed_back (n : Nat) : Pc.owed (.back n) = n := rfl
theorem owed_alloc : Pc.owed .alloc = 0 := rfl
theorem owed_freed : Pc.owed .freed = 0 := rfl

def Pool.debt (s : Pool) : Nat := (s.procs.map (fun p => p.pc.debt)).sum
def Pool.owed (s : Pool) : Nat := (s.procs.map (fun p => p.pc.owed)).sum

structure Inv (size nproc : Nat) (s : Pool) : Prop where
  bal : s.avail + s.reserved + s.debt + s.inUse = size
  nn : 0 ≤ s.avail + s.owed
  len : s.used.length = size
  np : s.procs.length = nproc

theorem sum_set {α : Type} (f : α → Nat) (y : α) :
    ∀ (l : List α) (k : Nat) (x : α), l[k]? = some x →
    ((l.set k y).map f).sum + f x = (l.map f).sum + f y := by
  intro l
  induction l with
  | nil => intro k x h; simp at h
  | cons a l ih =>
    intro k x h
    cases k with
    | zero =>
      simp only [List.getElem?_cons_zero, Option.some.injEq] at h
      subst h
      simp only [List.set_cons_zero, List.map_cons, List.sum_cons]
      omega
    | succ k =>
      simp only [List.getElem?_cons_succ] at h
      simp only [List.set_cons_succ, List.map_cons, List.sum_cons]
      have := ih k x h
      omega

theorem count_set_true :
    ∀ (l : List Bool) (k : Nat), l[k]? = some false →
    (l.set k true).count true = l.count true + 1 := by
  intro l
  induction l with
  | nil => intro k h; simp at h
  | cons a l ih =>
    intro k h
    cases k with
    | zero =>
      simp only [List.getElem?_cons_zero, Option.some.injEq] at h
      subst h
      simp
    | succ k =>
      simp only [List.getElem?_cons_succ] at h
      simp only [List.set_cons_succ, List.count_cons]
      have := ih k h
      omega

theorem count_set_false :
    ∀ (l : List Bool) (k : Nat), l[k]? = some true →
    (l.set k false).count true + 1 = l.count true := by
  intro l
  induction l with
  | nil => intro k h; simp at h
  | cons a l ih =>
    intro k h
    cases k with
    | zero =>
      simp only [List.getElem?_cons_zero, Option.some.injEq] at h
      subst h
      simp
    | succ k =>
      simp only [List.getElem?_cons_succ] at h
      simp only [List.set_cons_succ, List.count_cons]
      have := ih k h
      omega

theorem total4_add {r : Nat → Nat} {kind n : Nat} (h : kind < KINDS) :
    total4 (fun k => if k = kind then r k + n else r k) = total4 r + n := by
  unfold total4 KINDS at *
  have : kind = 0 ∨ kind = 1 ∨ kind = 2 ∨ kind = 3 := by omega
  rcases this with h | h | h | h <;> subst h <;> simp <;> omega

theorem total4_dec {r : Nat → Nat} {kind : Nat} (h : kind < KINDS) (hp : 0 < r kind) :
    total4 (fun k => if k = kind then r k - 1 else r k) + 1 = total4 r := by
  unfold total4 KINDS at *
  have : kind = 0 ∨ kind = 1 ∨ kind = 2 ∨ kind = 3 := by omega
  rcases this with h | h | h | h <;> subst h <;> simp <;> omega

theorem total4_release (r : Nat → Nat) (mask : Nat) :
    total4 (fun k => if mask.testBit k ∧ k < KINDS then 0 else r k) + masked4 mask r = total4 r := by
  have : ∀ k, k < 4 → (if mask.testBit k = true ∧ k < KINDS then 0 else r k) +
      (if mask.testBit k = true then r k else 0) = r k := by
    intro k hk
    have : k < KINDS := hk
    by_cases h : mask.testBit k = true <;> simp [h, this]
  have h0 := this 0 (by decide)
  have h1 := this 1 (by decide)
  have h2 := this 2 (by decide)
  have h3 := this 3 (by decide)
  unfold masked4 total4
  dsimp only
  omega

theorem sum_replicate_zero {α : Type} (f : α → Nat) (a : α) (h : f a = 0) :
    ∀ n, ((List.replicate n a).map f).sum = 0 := by
  intro n
  induction n with
  | zero => rfl
  | succ n ih => rw [List.replicate_succ, List.map_cons, List.sum_cons, ih, h]

theorem init_inv (size nproc : Nat) : Inv size nproc (Pool.init size nproc) := by
  constructor
  · unfold Pool.reserved Pool.debt Pool.inUse Pool.init
    dsimp only
    rw [sum_replicate_zero (fun p : Proc => total4 p.res) _ rfl,
      sum_replicate_zero (fun p : Proc => p.pc.debt) _ rfl, List.count_replicate]
    simp
  · unfold Pool.owed Pool.init
    dsimp only
    omega
  · simp [Pool.init]
  · simp [Pool.init]

theorem step_inv {size nproc : Nat} {s : Pool} (inv : Inv size nproc s) (o : Op) :
    Inv size nproc (step s o) := by
  have hbal := inv.bal
  have hnn := inv.nn
  cases o with
  | sub p kind n =>
    unfold step
    dsimp only
    split
    · rename_i pr hp
      split
      · rename_i hc
        split
        · have h1 := sum_set (fun p => total4 p.res) { pr with pc := .back n } _ _ _ hp
          have h2 := sum_set (fun p => p.pc.debt) { pr with pc := .back n } _ _ _ hp
          have h3 := sum_set (fun p => p.pc.owed) { pr with pc := .back n } _ _ _ hp
          simp only [hc.1, debt_idle, debt_back, debt_alloc, debt_freed, owed_idle, owed_back, owed_alloc,
            owed_freed] at h1 h2 h3
          constructor
          · simp only [Pool.reserved, Pool.debt, Pool.inUse] at hbal ⊢
            omega
          · simp only [Pool.owed] at hnn ⊢
            omega
          · exact inv.len
          · simpa using inv.np
        · have h1 := sum_set (fun p => total4 p.res)
            { pr with res := fun k => if k = kind then pr.res k + n else pr.res k } _ _ _ hp
          have h2 := sum_set (fun p => p.pc.debt)
            { pr with res := fun k => if k = kind then pr.res k + n else pr.res k } _ _ _ hp
          simp only [total4_add hc.2.1] at h1 h2
          constructor
          · simp only [Pool.reserved, Pool.debt, Pool.inUse] at hbal ⊢
            omega
          · simp only [Pool.owed] at hnn ⊢
            omega
          · exact inv.len
          · simpa using inv.np
      · exact inv
    · exact inv
  | addBack p =>
    unfold step
    dsimp only
    split
    · rename_i pr hp
      split
      · rename_i n hpc
        have h1 := sum_set (fun p => total4 p.res) { pr with pc := .idle } _ _ _ hp
        have h2 := sum_set (fun p => p.pc.debt) { pr with pc := .idle } _ _ _ hp
        have h3 := sum_set (fun p => p.pc.owed) { pr with pc := .idle } _ _ _ hp
        simp only [hpc, debt_idle, debt_back, debt_alloc, debt_freed, owed_idle, owed_back, owed_alloc,
            owed_freed] at h1 h2 h3
        constructor
        · simp only [Pool.reserved, Pool.debt, Pool.inUse] at hbal ⊢
          omega
        · simp only [Pool.owed] at hnn ⊢
          omega
        · exact inv.len
        · simpa using inv.np
      · exact inv
    · exact inv
  | release p mask =>
    unfold step
    dsimp only
    split
    · rename_i pr hp
      split
      · have h1 := sum_set (fun p => total4 p.res)
          { pr with res := fun k => if mask.testBit k ∧ k < KINDS then 0 else pr.res k } _ _ _ hp
        have h2 := sum_set (fun p => p.pc.debt)
          { pr with res := fun k => if mask.testBit k ∧ k < KINDS then 0 else pr.res k } _ _ _ hp
        have h3 := sum_set (fun p => p.pc.owed)
          { pr with res := fun k => if mask.testBit k ∧ k < KINDS then 0 else pr.res k } _ _ _ hp
        have h4 := total4_release pr.res mask
        dsimp only at h1 h2 h3
        constructor
        · simp only [Pool.reserved, Pool.debt, Pool.inUse] at hbal ⊢
          omega
        · simp only [Pool.owed] at hnn ⊢
          omega
        · exact inv.len
        · simpa using inv.np
      · exact inv
    · exact inv
  | take p kind =>
    unfold step
    dsimp only
    split
    · rename_i pr hp
      split
      · rename_i hc
        have h1 := sum_set (fun p => total4 p.res)
          { res := fun k => if k = kind then pr.res k - 1 else pr.res k, pc := .alloc } _ _ _ hp
        have h2 := sum_set (fun p => p.pc.debt)
          { res := fun k => if k = kind then pr.res k - 1 else pr.res k, pc := .alloc } _ _ _ hp
        have h3 := sum_set (fun p => p.pc.owed)
          { res := fun k => if k = kind then pr.res k - 1 else pr.res k, pc := .alloc } _ _ _ hp
        have h4 := total4_dec hc.2.1 hc.2.2
        simp only [hc.1, debt_idle, debt_back, debt_alloc, debt_freed, owed_idle, owed_back, owed_alloc,
            owed_freed] at h1 h2 h3
        constructor
        · simp only [Pool.reserved, Pool.debt, Pool.inUse] at hbal ⊢
          omega
        · simp only [Pool.owed] at hnn ⊢
          omega
        · exact inv.len
        · simpa using inv.np
      · exact inv
    · exact inv
  | occupy p b =>
    unfold step
    dsimp only
    split
    · rename_i pr hp
      split
      · rename_i hc
        have h1 := sum_set (fun p => total4 p.res) { pr with pc := .idle } _ _ _ hp
        have h2 := sum_set (fun p => p.pc.debt) { pr with pc := .idle } _ _ _ hp
        have h3 := sum_set (fun p => p.pc.owed) { pr with pc := .idle } _ _ _ hp
        have h4 := count_set_true _ _ hc.2
        simp only [hc.1, debt_idle, debt_back, debt_alloc, debt_freed, owed_idle, owed_back, owed_alloc,
            owed_freed] at h1 h2 h3
        constructor
        · simp only [Pool.reserved, Pool.debt, Pool.inUse] at hbal ⊢
          omega
        · simp only [Pool.owed] at hnn ⊢
          omega
        · simpa using inv.len
        · simpa using inv.np
      · exact inv
    · exact inv
  | free p b =>
    unfold step
    dsimp only
    split
    · rename_i pr hp
      split
      · rename_i hc
        have h1 := sum_set (fun p => total4 p.res) { pr with pc := .freed } _ _ _ hp
        have h2 := sum_set (fun p => p.pc.debt) { pr with pc := .freed } _ _ _ hp
        have h3 := sum_set (fun p => p.pc.owed) { pr with pc := .freed } _ _ _ hp
        have h4 := count_set_false _ _ hc.2
        simp only [hc.1, debt_idle, debt_back, debt_alloc, debt_freed, owed_idle, owed_back, owed_alloc,
            owed_freed] at h1 h2 h3
        constructor
        · simp only [Pool.reserved, Pool.debt, Pool.inUse] at hbal ⊢
          omega
        · simp only [Pool.owed] at hnn ⊢
          omega
        · simpa using inv.len
        · simpa using inv.np
      · exact inv
    · exact inv
  | count p =>
    unfold step
    dsimp only
    split
    · rename_i pr hp
      split
      · rename_i hc
        have h1 := sum_set (fun p => total4 p.res) { pr with pc := .idle } _ _ _ hp
        have h2 := sum_set (fun p => p.pc.debt) { pr with pc := .idle } _ _ _ hp
        have h3 := sum_set (fun p => p.pc.owed) { pr with pc := .idle } _ _ _ hp
        simp only [hc, debt_idle, debt_back, debt_alloc, debt_freed, owed_idle, owed_back, owed_alloc,
            owed_freed] at h1 h2 h3
        constructor
        · simp only [Pool.reserved, Pool.debt, Pool.inUse] at hbal ⊢
          omega
        · simp only [Pool.owed] at hnn ⊢
          omega
        · exact inv.len
        · simpa using inv.np
      · exact inv
    · exact inv

theorem run_inv (size nproc : Nat) (ops : List Op) : Inv size nproc (run size nproc ops) := by
  unfold run
  suffices ∀ s, Inv size nproc s → Inv size nproc (ops.foldl step s) from this _ (init_inv _ _)
  induction ops with
  | nil => intro s h; exact h
  | cons o ops ih => intro s h; exact ih _ (step_inv h o)

theorem sum_zero_of {α : Type} (f : α → Nat) : ∀ l : List α, (∀ x ∈ l, f x = 0) →
    (l.map f).sum = 0 := by
  intro l
  induction l with
  | nil => intro _; rfl
  | cons a l ih =>
    intro h
    rw [List.map_cons, List.sum_cons, h a (List.mem_cons_self ..),
      ih (fun x hx => h x (List.mem_cons_of_mem _ hx))]

/-! ## C11 for the shared pool -/

/-- **C11**, conservation: whenever no process is inside a pool function, pages
available + pages reserved + pages in use = pool size, and none of the three is
negative. -/
theorem C11_conserved (size nproc : Nat) (ops : List Op)
    (hr : (run size nproc ops).atRest) :
    (run size nproc ops).avail + (run size nproc ops).reserved + (run size nproc ops).inUse = size ∧
    0 ≤ (run size nproc ops).avail := by
  have inv := run_inv size nproc ops
  have h1 : (run size nproc ops).debt = 0 :=
    sum_zero_of _ _ (fun p hp => by rw [hr p hp]; rfl)
  have h2 : (run size nproc ops).owed = 0 :=
    sum_zero_of _ _ (fun p hp => by rw [hr p hp]; rfl)
  have := inv.bal
  have := inv.nn
  constructor <;> omega

theorem alloc_le_debt : ∀ l : List Proc,
    l.countP (fun p => decide (p.pc = .alloc)) + (l.map (fun p => p.pc.owed)).sum ≤
      (l.map (fun p => p.pc.debt)).sum := by
  intro l
  induction l with
  | nil => simp
  | cons a l ih =>
    simp only [List.countP_cons, List.map_cons, List.sum_cons]
    cases h : a.pc <;>
      simp [debt_idle, debt_back, debt_alloc, debt_freed, owed_idle, owed_back, owed_alloc,
        owed_freed] <;> omega

/-- **C11**, no overcommit, at every moment: the free pages are enough for every
allocation in progress and every page still reserved. -/
theorem C11_free_pages_cover_reservations (size nproc : Nat) (ops : List Op) :
    (run size nproc ops).reserved + (run size nproc ops).allocating ≤
      (run size nproc ops).used.count false := by
  have inv := run_inv size nproc ops
  have h1 := inv.bal
  have h2 := inv.nn
  have h3 := inv.len
  have h4 := alloc_le_debt (run size nproc ops).procs
  have h5 : (run size nproc ops).used.count true + (run size nproc ops).used.count false =
      (run size nproc ops).used.length := by
    generalize (run size nproc ops).used = l
    induction l with
    | nil => rfl
    | cons a l ih => cases a <;> simp <;> omega
  simp only [Pool.allocating, Pool.debt, Pool.owed, Pool.inUse] at *
  omega

/-- **C11**, an allocation from a reservation never fails: while a process is in
`o_ppool_alloc_page` there is a page it can occupy, and occupying it ends the
call. -/
theorem C11_alloc_never_fails (size nproc : Nat) (ops : List Op) (p : Nat) (pr : Proc)
    (hp : (run size nproc ops).procs[p]? = some pr) (ha : pr.pc = .alloc) :
    ∃ b, b < size ∧ (run size nproc ops).used[b]? = some false ∧
      (step (run size nproc ops) (.occupy p b)).procs[p]? = some { pr with pc := .idle } ∧
      (step (run size nproc ops) (.occupy p b)).used[b]? = some true := by
  have h1 := C11_free_pages_cover_reservations size nproc ops
  have hpos : 0 < (run size nproc ops).allocating := by
    unfold Pool.allocating
    rw [List.countP_pos_iff]
    exact ⟨pr, List.mem_of_getElem? hp, by rw [ha]; rfl⟩
  have hf : 0 < (run size nproc ops).used.count false := by omega
  obtain ⟨b, hb⟩ := List.getElem?_of_mem (List.count_pos_iff.1 hf)
  have hlt : b < (run size nproc ops).used.length := by
    rcases Nat.lt_or_ge b (run size nproc ops).used.length with h | h
    · exact h
    · rw [List.getElem?_eq_none h] at hb; cases hb
  have hplt : p < (run size nproc ops).procs.length := by
    rcases Nat.lt_or_ge p (run size nproc ops).procs.length with h | h
    · exact h
    · rw [List.getElem?_eq_none h] at hp; cases hp
  refine ⟨b, by rw [← (run_inv size nproc ops).len]; exact hlt, hb, ?_, ?_⟩
  · unfold step
    simp only [hp, ha, hb, true_and, if_true]
    rw [List.getElem?_set_self hplt]
  · unfold step
    simp only [hp, ha, hb, true_and, if_true]
    rw [List.getElem?_set_self hlt]

theorem set_self {α : Type} : ∀ (l : List α) (k : Nat) (x : α), l[k]? = some x → l.set k x = l := by
  intro l
  induction l with
  | nil => intro k x h; simp at h
  | cons a l ih =>
    intro k x h
    cases k with
    | zero => simp at h; subst h; rfl
    | succ k => simp at h; rw [List.set_cons_succ, ih k x h]

/-- **C11**, a failed reservation leaves the counters unchanged: when process `p`
fails to reserve `n` pages, its next step brings back the state before the call,
and in between nobody's reservations have changed. -/
theorem C11_failed_reservation (s : Pool) (p kind n : Nat) (pr : Proc)
    (hp : s.procs[p]? = some pr) (hi : pr.pc = .idle) (hk : kind < KINDS) (hn : 0 < n)
    (hfail : s.avail < n) :
    (step s (.sub p kind n)).procs[p]? = some { pr with pc := .back n } ∧
    step (step s (.sub p kind n)) (.addBack p) = s ∧
    (step s (.sub p kind n)).reserved = s.reserved := by
  have hplt : p < s.procs.length := by
    rcases Nat.lt_or_ge p s.procs.length with h | h
    · exact h
    · rw [List.getElem?_eq_none h] at hp; cases hp
  have h1 : step s (.sub p kind n) =
      { s with avail := s.avail - n, procs := s.procs.set p { pr with pc := .back n } } := by
    unfold step
    simp only [hp, hi, hk, hn, true_and, if_true]
    rw [if_pos (by omega)]
  refine ⟨?_, ?_, ?_⟩
  · rw [h1]; exact List.getElem?_set_self hplt
  · rw [h1]
    unfold step
    simp only [List.getElem?_set_self hplt, List.set_set]
    have : ({ res := pr.res, pc := Pc.idle } : Proc) = pr := by
      cases pr; simp only at hi; subst hi; rfl
    rw [this, set_self _ _ _ hp, show s.avail - (n : Int) + n = s.avail by omega]
  · rw [h1]
    have := sum_set (fun p => total4 p.res) { pr with pc := .back n } _ _ _ hp
    simp only [Pool.reserved] at this ⊢
    omega

/-- **C11**, a release returns exactly what was reserved and not used: the
reservations of the masked kinds become 0, the others stay, and `avail` grows by
the sum of the former. -/
theorem C11_release (s : Pool) (p mask : Nat) (pr : Proc)
    (hp : s.procs[p]? = some pr) (hi : pr.pc = .idle) :
    ∃ pr', (step s (.release p mask)).procs[p]? = some pr' ∧
      (∀ k, k < 4 → pr'.res k = if mask.testBit k then 0 else pr.res k) ∧
      (step s (.release p mask)).avail + total4 pr'.res = s.avail + total4 pr.res ∧
      (step s (.release p mask)).used = s.used ∧
      ∀ q, q ≠ p → (step s (.release p mask)).procs[q]? = s.procs[q]? := by
  have hplt : p < s.procs.length := by
    rcases Nat.lt_or_ge p s.procs.length with h | h
    · exact h
    · rw [List.getElem?_eq_none h] at hp; cases hp
  refine ⟨{ pr with res := fun k => if mask.testBit k ∧ k < KINDS then 0 else pr.res k }, ?_, ?_, ?_,
    ?_, ?_⟩
  · unfold step
    simp only [hp, hi, if_true]
    rw [List.getElem?_set_self hplt]
  · intro k hk
    have : k < KINDS := hk
    simp [this]
  · unfold step
    simp only [hp, hi, if_true]
    have := total4_release pr.res mask
    omega
  · unfold step
    simp only [hp, hi, if_true]
  · intro q hq
    unfold step
    simp only [hp, hi, if_true]
    rw [List.getElem?_set_ne (Ne.symm hq)]

/-! Cases that meet the hypotheses: three processes on a pool of 4 pages; process 1
fails a reservation while process 0 holds one, process 0 allocates and frees. -/

def sample : List Op :=
  [.sub 0 1 3, .sub 1 2 2, .addBack 1, .take 0 1, .occupy 0 2, .sub 2 0 1, .free 0 2, .count 0,
   .release 0 2]

/-- The state of `sample` as data: `avail`, pages in use, reservations and pcs. -/
def Pool.view (s : Pool) : Int × List Bool × List (Nat × Nat × Nat × Nat × Pc) :=
  (s.avail, s.used, s.procs.map (fun p => (p.res 0, p.res 1, p.res 2, p.res 3, p.pc)))

example : (run 4 3 sample).view =
    (3, [false, false, false, false],
      [(0, 0, 0, 0, .idle), (0, 0, 0, 0, .idle), (1, 0, 0, 0, .idle)]) := by rfl

/-- Process 1 after its failed subtraction. -/
example : (run 4 3 (sample.take 2)).view =
    (-1, [false, false, false, false],
      [(0, 3, 0, 0, .idle), (0, 0, 0, 0, .back 2), (0, 0, 0, 0, .idle)]) := by rfl

/-- Process 0 inside `o_ppool_alloc_page` (`C11_alloc_never_fails`). -/
example : (run 4 3 (sample.take 4)).view =
    (1, [false, false, false, false],
      [(0, 2, 0, 0, .alloc), (0, 0, 0, 0, .idle), (0, 0, 0, 0, .idle)]) := by rfl

end Verif.PagePool
