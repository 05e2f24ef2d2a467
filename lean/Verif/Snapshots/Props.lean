import Verif.Snapshots.StepSn

/-!
# Snapshots: C21, C22, C49, C50
-/

namespace Verif.Snapshots

variable {N n : Nat} {as : List Act}

/-! ## What holds -/

/-- C21 in every run without ties at resets of `xmin` and without aborts of autonomous
transactions.  Missing: with either, it is false (`C21_violated`). -/
theorem C21_partial (hr : as.all regular = true) (hu : untiedRun N (init n) as = true) :
    C21 (runActs N (init n) as).tr := (inv_run (inv_init n) hr hu).c21

/-- C22 in the same runs.  Missing: otherwise it is false (`C22_violated`). -/
theorem C22_partial (hr : as.all regular = true) (hu : untiedRun N (init n) as = true) :
    C22 (runActs N (init n) as).tr := (inv_run (inv_init n) hr hu).c22

/-- C49 in the same runs.  Missing: with the abort of an autonomous transaction it is false
(`C49_violated`). -/
theorem C49_partial (hr : as.all regular = true) (hu : untiedRun N (init n) as = true) :
    C49 (runActs N (init n) as).tr := (inv_run (inv_init n) hr hu).c49

/-- C50 in the same runs.  Missing: with a tie it is false (`C50_violated`). -/
theorem C50_partial (hr : as.all regular = true) (hu : untiedRun N (init n) as = true) :
    C50 (runActs N (init n) as) := (inv_run (inv_init n) hr hu).c50

/-! ## A case -/

/-- A snapshot is taken, from first to last step. -/
def takes (p : Nat) : List Act := [.take p, .rdGo p, .rdGo p, .rdGo p]

/-- Change `k` of transaction `x` is looked at with the `i`-th registered snapshot. -/
def looks (p i x k : Nat) : List Act := [.look p i false x k, .rdGo p, .rdGo p, .rdGo p]

/-- A commit. -/
def commits (p : Nat) : List Act := [.precommit p, .number p, .store p]

/-- `advance_global_xmin` with two processes. -/
def advances : List Act := [.advStart, .advGo, .advGo, .advGo]

/-- Session 1 begins transaction 5 and makes two changes; session 0 takes a snapshot while
session 1 is between mark and number, looks and has to wait; session 1 commits, session 0 sees
nothing, a later snapshot sees both changes.  Transaction 6 makes a change and aborts: it is
not seen before or after.  `globalXmin` passes transaction 5, still the first snapshot does not
see it. -/
def life : List Act :=
  [.begin 1, .change 1 7, .change 1 8] ++
  takes 0 ++ [.register 0, .precommit 1, .look 0 0 false 5 7, .rdGo 0, .rdGo 0, .rdGo 0,
    .number 1, .store 1, .raiseRun, .rdGo 0, .rdGo 0] ++ advances ++
  looks 0 0 5 8 ++ [.raiseLow ⟨1, 1, 1⟩] ++ takes 0 ++ [.register 0] ++ looks 0 0 5 8 ++
  [.begin 1, .change 1 9] ++ looks 0 0 6 9 ++ [.abort 1, .undoOne 1, .aborted 1, .raiseRun] ++
  looks 0 0 6 9 ++ [.deregister 0 1, .reset 0 0 0 0] ++ advances ++ looks 0 0 5 7

/-- Transactions and changes looked at, and the answers, newest first. -/
def answers (tr : List Ev) : List (Nat × Nat × Bool) :=
  tr.filterMap fun e => match e with | .look _ x k r => some (x, k, r) | _ => none

set_option maxRecDepth 100000 in
/-- The run meets the hypotheses, and gives different answers. -/
theorem life_case :
    life.all regular = true ∧ untiedRun 2 (init 5) life = true ∧
    answers (runActs 2 (init 5) life).tr =
      [(5, 7, true), (6, 9, false), (6, 9, false), (5, 8, true), (5, 8, false), (5, 7, false)] ∧
    (runActs 2 (init 5) life).glob = 6 ∧ (runActs 2 (init 5) life).runXmin = 7 := by
  decide

/-! ## What fails -/

/-- Two different answers about a change from one snapshot. -/
def unstable (tr : List Ev) : Bool :=
  tr.any fun e => match e with
    | .look sn x k true => tr.contains (.look sn x k false)
    | _ => false

theorem unstable_violates {tr : List Ev} (h : unstable tr = true) : ¬ C21 tr := by
  intro hc
  obtain ⟨e, he, h1⟩ := List.any_eq_true.1 h
  split at h1
  · rename_i sn x k
    have := hc sn x k _ _ he (List.contains_iff_mem.1 h1)
    cases this
  · cases h1

/-- Session 1 makes a change in transaction 5.  Session 0 registers two snapshots; transaction 5
commits; session 0 registers a third snapshot and drops the first.  The undo logs have not
moved: the locations of all three are the same, and the third may be on top of the heaps.
`xmin` of the session becomes that of the third, `globalXmin` follows, and the second snapshot
now sees transaction 5. -/
def tieRun : List Act :=
  [.begin 1, .change 1 7] ++ takes 0 ++ [.register 0] ++ takes 0 ++ [.register 0] ++
  looks 0 0 5 7 ++ commits 1 ++ [.raiseRun] ++ takes 0 ++ [.register 0, .deregister 0 2, .reset 0 0 0 0] ++
  advances ++ looks 0 1 5 7

set_option maxRecDepth 100000 in
/-- C21 fails after a reset of `xmin` with a tie (`src/transam/undo.c:2396-2410`). -/
theorem C21_violated : ∃ as, as.all regular = true ∧ ¬ C21 (runActs 2 (init 5) as).tr :=
  ⟨tieRun, by decide, unstable_violates (by decide)⟩

set_option maxRecDepth 100000 in
/-- C50 fails in the same run. -/
theorem C50_violated : ∃ as, as.all regular = true ∧ ¬ C50 (runActs 2 (init 5) as) := by
  refine ⟨tieRun, by decide, fun h => ?_⟩
  obtain ⟨sn, hs, e⟩ : ∃ sn, (runActs 2 (init 5) tieRun).reg 0 = [sn, ⟨5, 6, ⟨0, 0, 0⟩, 7, 10⟩] ∧ sn.xmin = 6 :=
    ⟨⟨6, 7, ⟨0, 0, 0⟩, 20, 23⟩, by decide, rfl⟩
  obtain ⟨m, e1, e2⟩ := h 0 ⟨5, 6, ⟨0, 0, 0⟩, 7, 10⟩ (Or.inr (by rw [hs]; simp))
  have : (runActs 2 (init 5) tieRun).pxmin 0 = some 6 := by decide
  rw [this] at e1
  cases e1
  exact absurd e2 (by decide)

/-- In the same way with a transaction that makes two changes: the second snapshot looks at one
before and at the other after, and sees half of the transaction. -/
def halfRun : List Act :=
  [.begin 1, .change 1 7, .change 1 8] ++ takes 0 ++ [.register 0] ++ takes 0 ++ [.register 0] ++
  looks 0 0 5 7 ++ commits 1 ++ [.raiseRun] ++ takes 0 ++ [.register 0, .deregister 0 2, .reset 0 0 0 0] ++
  advances ++ looks 0 1 5 8

/-- A look that saw a change, a look with the same snapshot that did not see a change of the same
transaction, and the only commit of that transaction has both changes. -/
def half (tr : List Ev) : Bool :=
  tr.any fun e => match e with
    | .look sn x _ true => tr.any fun e' => match e' with
      | .look sn' x' k' false => decide (sn' = sn ∧ x' = x) &&
          tr.all fun c => match c with
            | .commit _ y ks => decide (y = x → k' ∈ ks)
            | _ => true
      | _ => false
    | _ => false

theorem half_violates {tr : List Ev} (h : half tr = true) : ¬ C22 tr := by
  intro hc
  obtain ⟨e, he, h1⟩ := List.any_eq_true.1 h
  split at h1
  · rename_i sn x k
    obtain ⟨e', he', h2⟩ := List.any_eq_true.1 h1
    split at h2
    · rename_i sn' x' k'
      simp only [Bool.and_eq_true, decide_eq_true_eq] at h2
      obtain ⟨⟨e1, e2⟩, h3⟩ := h2
      obtain ⟨t, ks, hk, _, hall⟩ := hc.all sn x k he
      have := List.all_eq_true.1 h3 _ hk
      simp only [decide_eq_true_eq] at this
      rw [e1, e2] at he'
      have := hall k' (by simpa using this) false he'
      cases this
    · cases h2
  · cases h1

set_option maxRecDepth 100000 in
/-- C22 fails after a reset of `xmin` with a tie. -/
theorem C22_violated : ∃ as, as.all regular = true ∧ ¬ C22 (runActs 2 (init 5) as).tr :=
  ⟨halfRun, by decide, half_violates (by decide)⟩

/-- An autonomous transaction makes a change and is aborted: its status changes, `runXmin` passes
it, a snapshot is taken, and sees the change, which is undone only afterwards. -/
def lateRun : List Act :=
  [.begin 1, .change 1 7, .abortAuto 1, .raiseRun] ++ takes 0 ++ [.register 0] ++ looks 0 0 5 7 ++
  [.lateUndo 1, .lateUndo 1]

set_option maxRecDepth 100000 in
/-- C49 fails when an autonomous transaction is aborted (`src/transam/undo.c:3146-3148`). -/
theorem C49_violated : ∃ as, untiedRun 2 (init 5) as = true ∧ ¬ C49 (runActs 2 (init 5) as).tr := by
  refine ⟨lateRun, by decide, fun h => ?_⟩
  exact h ⟨6, 6, ⟨0, 0, 0⟩, 4, 7⟩ 5 7 (by decide) (by decide)

set_option maxRecDepth 100000 in
/-- And C21: looked at again, the change is gone. -/
theorem C21_violated_late :
    ∃ as, untiedRun 2 (init 5) as = true ∧ ¬ C21 (runActs 2 (init 5) as).tr :=
  ⟨lateRun ++ looks 0 0 5 7, by decide, unstable_violates (by decide)⟩

/-! ## The tie, with PostgreSQL's heap -/

/-- A pairing heap (PostgreSQL, `src/backend/lib/pairingheap.c`, not in `/repo`). -/
inductive Heap where
  | node (sn : Snap) (children : List Heap)

/-- The snapshot on top. -/
def Heap.snap : Heap → Snap
  | .node sn _ => sn

/-- `merge` with `undoLocCmp` (`src/transam/undo.c:3464-3476`): on a tie the first stays on
top. -/
def Heap.merge (l : Nat) : Heap → Heap → Heap
  | .node a as, .node b bs =>
    if b.loc.of l < a.loc.of l then .node b (.node a as :: bs) else .node a (.node b bs :: as)

/-- `pairingheap_add`. -/
def Heap.add (l : Nat) (h : Option Heap) (sn : Snap) : Option Heap :=
  match h with
  | none => some (.node sn [])
  | some h => some (h.merge l (.node sn []))

/-- The pairs of `merge_children`, the last first. -/
def Heap.pairs (l : Nat) : List Heap → List Heap → List Heap
  | acc, [] => acc
  | acc, [h] => h :: acc
  | acc, h :: h' :: hs => Heap.pairs l (h.merge l h' :: acc) hs

/-- `pairingheap_remove_first`. -/
def Heap.removeFirst (l : Nat) : Heap → Option Heap
  | .node _ hs =>
    match Heap.pairs l [] hs with
    | [] => none
    | h :: hs => some (hs.foldl (Heap.merge l) h)

/-- In the run above, PostgreSQL's heap has the third snapshot on top after the first, which was
registered first, is removed: the choice made in `tieRun` is the code's. -/
theorem tie_top (l : Nat) (a b d : Snap) (hab : a.loc = b.loc) (had : a.loc = d.loc) :
    ((Heap.add l (Heap.add l (Heap.add l none a) b) d).bind (Heap.removeFirst l)).map Heap.snap
      = some d := by
  simp [Heap.add, Heap.merge, Heap.removeFirst, Heap.pairs, ← hab, ← had, Heap.snap]

end Verif.Snapshots
