import Verif.UndoLog.StepData
import Verif.UndoLog.Spec

/-!
# The undo log: C23, C25, C52, C53, C54
-/

namespace Verif.UndoLog

variable {c : Cfg} {n : Nat} {as : List Act}

/-! ## What holds in all runs -/

/-- C23, for any number of processes and any run. -/
theorem C23_holds : C23 c.size (runActs c (init n) as).recs (runActs c (init n) as).obs := by
  have h := (inv_run (as := as) (inv_init (c := c) n)).log
  refine ⟨fun r hr => ⟨(h.recs r hr).1, fun k hk => ?_⟩, ?_, h.saved, h.once⟩
  · have h1 := h.recs r hr
    have h2 := Nat.div_add_mod r.loc c.size
    have h3 : r.loc + k = r.loc % c.size + k + c.size * (r.loc / c.size) := by omega
    rw [h3, Nat.add_mul_mod_self_left, Nat.mod_eq_of_lt (by omega)]
  · exact h.disj.imp fun h1 x h2 => by omega

/-- C52, for any number of processes and any run. -/
theorem C52_holds : C52 (runActs c (init n) as) := (inv_run (inv_init n)).noPanic

/-! ## What holds in calm runs -/

/-- Every action is calm (`calmStep`). -/
def calm (c : Cfg) (s : St) : List Act → Prop
  | [] => True
  | a :: as => calmStep s a ∧ calm c (step c s a) as

theorem calm_run : ∀ {as : List Act} {s : St}, Inv c s → Ret c s → Data c s → calm c s as →
    Inv c (runActs c s as) ∧ Ret c (runActs c s as) ∧ Data c (runActs c s as)
  | [], _, hi, hr, hd, _ => ⟨hi, hr, hd⟩
  | a :: as, s, hi, hr, hd, hc =>
    calm_run (as := as) (s := step c s a) (inv_step hi) (ret_step hi hr hc.1) (data_step hi hr hd) hc.2

/-- C25 in calm runs.  Missing: when a session that has a snapshot finishes building an index it
is false (`C25_violated`). -/
theorem C25_partial (hc : calm c (init n) as) : C25 c.procs (runActs c (init n) as) := by
  obtain ⟨hi, hr, _⟩ := calm_run (inv_init n) (ret_init n) (data_init n) hc
  intro p hp r hs
  have h1 := ((hr.proc p hp).snaps r hs).2.1
  have h2 := hi.base.marks.cleaned
  omega

/-- C53 in calm runs.  Missing: in the cases `C53_violated` and `C53_violated_hand`. -/
theorem C53_partial (hc : calm c (init n) as) : C53 (runActs c (init n) as) := by
  obtain ⟨_, _, hd⟩ := calm_run (inv_init n) (ret_init n) (data_init n) hc
  exact ⟨hd.obs, hd.lost⟩

/-- C54 in calm runs.  Missing: when a record is handed to a waiting process while the locations
of processes are being read it is false (`C54_violated`). -/
theorem C54_partial (hc : calm c (init n) as) : C54 c.procs (runActs c (init n) as) := by
  obtain ⟨hi, hr, _⟩ := calm_run (inv_init n) (ret_init n) (data_init n) hc
  refine ⟨hr.took, ?_⟩
  intro p hp x hx
  obtain ⟨h1, t, h2, h3⟩ := (hr.proc p hp).undo x hx
  obtain ⟨h4, h5⟩ := (hr.proc p hp).conf t h2 h1
  have h6 := ret_of_conf hi.base.marks h4 h5
  have h7 := hi.base.marks.cleaned
  omega

/-! ## A case -/

def gos (p n : Nat) : List Act := List.replicate n (.go p)

def ums (n : Nat) : List Act := List.replicate n .umGo

def evs (n : Nat) : List Act := List.replicate n .evGo

def puts (p : Nat) (vs : List Nat) : List Act := vs.map (.put p)

/-- A record is made, from the reservation to the release. -/
def makes (p : Nat) (vs : List Nat) : List Act :=
  [.reserve p (2 * vs.length), .go p, .get p vs.length] ++ gos p 7 ++ puts p vs ++
    [.release p, .releaseSize p]

/-- A snapshot is taken. -/
def snapshots (p : Nat) : List Act := .snap p :: gos p 4

/-- `update_min_undo_locations` with two processes. -/
def scans : List Act := .umStart true :: ums 15

/-- Two processes and a ring of 16 bytes. -/
def two : Cfg := ⟨2, 16⟩

/-- Both make a record, process 1 takes a snapshot. -/
def life1 : List Act := makes 0 [1, 2, 3, 4, 5] ++ makes 1 [6, 7, 8, 9] ++ snapshots 1 ++ scans

/-- Process 0 wants 10 bytes more and has to evict; meanwhile process 1 changes its record. -/
def life2 : List Act :=
  .reserve 0 10 :: gos 0 5 ++ evs 1 ++ ums 14 ++ evs 1 ++ [.write 1 37 [16, 17, 18, 19]] ++
    gos 1 3 ++ evs 9 ++ gos 1 20

/-- Process 0 makes its record and reads its first one, half of it evicted. -/
def life3 : List Act :=
  .get 0 5 :: gos 0 8 ++ puts 0 [21, 22, 23, 24, 25] ++
    [.release 0, .releaseSize 0, .read 0 32 5] ++ gos 0 20

/-- Process 1 reads that record while process 0 changes it. -/
def life4 : List Act :=
  [.read 1 32 5, .write 0 32 [31, 32, 33, 34, 35]] ++ gos 1 2 ++ gos 0 8 ++ gos 1 4 ++
    gos 0 2 ++ gos 1 2 ++ gos 0 9 ++ gos 1 9

/-- Another record, for which the end of the ring is skipped, after another eviction. -/
def life5 : List Act :=
  scans ++ [.reserve 0 10] ++ gos 0 5 ++ evs 1 ++ ums 14 ++ evs 12 ++ [.get 0 5] ++ gos 0 8 ++
    puts 0 [41, 42, 43, 44, 45] ++ [.release 0, .releaseSize 0]

def life : List Act := life1 ++ life2 ++ life3 ++ life4 ++ life5

instance (s : St) (a : Act) : Decidable (calmStep s a) := by
  cases a <;> unfold calmStep <;> infer_instance

instance calmDec (c : Cfg) : ∀ (as : List Act) (s : St), Decidable (calm c s as)
  | [], _ => isTrue trivial
  | a :: as, s =>
    have := calmDec c as (step c s a)
    inferInstanceAs (Decidable (calmStep s a ∧ calm c (step c s a) as))

/-- What was read: location, value, values it had during the read. -/
def readings (obs : List Ob) : List (Nat × Nat × List Nat) :=
  obs.filterMap fun o => match o with | .read _ x v vs => some (x, v, vs) | _ => none

set_option maxRecDepth 100000 in
/-- The run is calm; four records, the last beyond the end of the ring; bytes read from the file
and the ring, before and after a concurrent change; ten bytes written out, the snapshot still
there. -/
theorem life_case :
    calm two (init 32) life ∧
      (runActs two (init 32) life).recs = [⟨51, 5⟩, ⟨41, 5⟩, ⟨37, 4⟩, ⟨32, 5⟩] ∧
      readings (runActs two (init 32) life).obs =
        [(36, 35, [35, 5]), (35, 4, [34, 4]), (34, 3, [33, 3]), (33, 2, [32, 2]),
          (32, 1, [31, 1]), (36, 5, [5]), (35, 4, [4]), (34, 3, [3]), (33, 2, [2]),
          (32, 1, [1])] ∧
      (runActs two (init 32) life).written = 40 ∧
      (runActs two (init 32) life).snaps 1 = [32] ∧
      (runActs two (init 32) life).undo 0 = [51, 41, 32] ∧
      .took 1 32 [37, 32] ∈ (runActs two (init 32) life).obs := by
  decide +kernel

set_option maxRecDepth 100000 in
/-- When all is dropped, all is truncated. -/
theorem end_case :
    (runActs two (init 32) (life ++ [.free 0, .free 1, .drop 1 0, .reset 1] ++ scans)).minRet = 56 ∧
      (runActs two (init 32)
        (life ++ [.free 0, .free 1, .drop 1 0, .reset 1] ++ scans)).cleaned = 56 := by
  decide +kernel

/-! ## What does not hold -/

/-- Session 1 has a snapshot, session 0 changes something and commits; session 1 finishes
building an index, which discards the location it retains. -/
def index : List Act :=
  snapshots 1 ++ makes 0 [1, 2, 3] ++ [.clearMy 1, .free 0] ++ scans

set_option maxRecDepth 100000 in
/-- The undo of the snapshot is gone. -/
theorem C25_violated : ¬ C25 two.procs (runActs two (init 32) index) := by
  intro h
  have h1 := h 1 (by decide) 32 (by decide +kernel)
  exact absurd h1 (by decide +kernel)

/-- Is this the failure of a read? -/
def Pc.isLost : Pc → Bool
  | .lost => true
  | _ => false

set_option maxRecDepth 100000 in
/-- A read with that snapshot fails. -/
theorem C53_violated :
    ¬ C53 (runActs two (init 32) (index ++ [.read 1 32 3] ++ gos 1 20)) := by
  intro h
  have h1 := h.2 1
  have h2 : (((runActs two (init 32) (index ++ [.read 1 32 3] ++ gos 1 20))).pc 1).isLost = true := by
    decide +kernel
  generalize ((runActs two (init 32) (index ++ [.read 1 32 3] ++ gos 1 20))).pc 1 = pc at h1 h2
  cases pc <;> simp [Pc.isLost] at h1 h2

/-- Session 1 makes an undo record for session 0, which waits in the queue; the locations of the
processes are being read, session 0 is through; session 1 hands over the record and ends its
transaction before its turn. -/
def handed : List Act :=
  [.reserve 1 6, .go 1, .get 1 3] ++ gos 1 7 ++ puts 1 [1, 2, 3] ++
    [.queue 0, .umStart true] ++ ums 4 ++ [.hand 1 0, .release 1, .wake 0, .free 1] ++ ums 11

set_option maxRecDepth 100000 in
/-- The undo of the transaction of session 0 is gone. -/
theorem C54_violated : ¬ C54 two.procs (runActs two (init 32) handed) := by
  intro h
  have h1 := h.2 0 (by decide) 32 (by decide +kernel)
  exact absurd h1 (by decide +kernel)

set_option maxRecDepth 100000 in
/-- Its rollback fails. -/
theorem C53_violated_hand :
    ¬ C53 (runActs two (init 32) (handed ++ [.read 0 32 3] ++ gos 0 20)) := by
  intro h
  have h1 := h.2 0
  have h2 : (((runActs two (init 32) (handed ++ [.read 0 32 3] ++ gos 0 20))).pc 0).isLost = true := by
    decide +kernel
  generalize ((runActs two (init 32) (handed ++ [.read 0 32 3] ++ gos 0 20))).pc 0 = pc at h1 h2
  cases pc <;> simp [Pc.isLost] at h1 h2

end Verif.UndoLog
