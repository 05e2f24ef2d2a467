import Verif.Workers.Order
/-!
# C81, C82 and C83
-/

namespace Verif.Workers

/-- **C81.**  When the startup process of a hot standby settles a transaction, every change of it in the
log has been applied, by the worker its key belongs to and as a change of this transaction, and every
worker with changes of it has finished it: whatever the order in which the processes move, whenever
buffers are sent, and whenever `finished_list` is looked at. -/
theorem C81_whole {c : Cfg} {log : List Rec} {ms : List Move} {s : St} (hn : 0 < c.n)
    (hh : c.hot = true) (hpr : Proper log) (hs : run c log init ms = some s) {x : Nat} {ok : Bool}
    (hx : (x, ok) ∈ s.settled) : Whole c log s x ∧ NothingLeft s x :=
  whole_settled hpr (run_inv hn hpr (init_inv c log) hs)
    (run_safe hn hpr hh (init_inv c log) (init_safe c log) hs) hx hn

/-- Each transaction is settled with the outcome it has in the log. -/
theorem C81_outcome {c : Cfg} {log : List Rec} {ms : List Move} {s : St} (hn : 0 < c.n)
    (hpr : Proper log) (hs : run c log init ms = some s) {x : Nat} {ok : Bool}
    (hx : (x, ok) ∈ s.settled) : ∃ k : Nat, log[k]? = some (.fin x ok) := by
  obtain ⟨k, hk, _⟩ := (run_inv hn hpr (init_inv c log) hs).settled _ hx
  exact ⟨k, hk⟩

/-- **C82**, in part.  Of the transactions whose end the startup process does not wait at, those settled
are the first ones of the log, in the order of the log; and so of those it waits at.  If there are none
of the latter, transactions are settled in the order of the log.  What is missing: the order of a
transaction of the one kind and one of the other. -/
theorem C82_order_partial {c : Cfg} {log : List Rec} {ms : List Move} {s : St} (hn : 0 < c.n)
    (hpr : Proper log) (hs : run c log init ms = some s) :
    s.settled.filter (fun e => c.sys e.1 || c.ckpt e.1) <+:
      (ends log).filter (fun e => c.sys e.1 || c.ckpt e.1) ∧
    s.settled.filter (fun e => !(c.sys e.1 || c.ckpt e.1)) <+:
      (ends log).filter (fun e => !(c.sys e.1 || c.ckpt e.1)) ∧
    ((∀ x, c.sys x = false) → (∀ x, c.ckpt x = false) → s.settled <+: ends log) := by
  have ho := run_ord hn hpr (init_inv c log) (init_ord c log) hs
  have he : ends (log.take s.next) <+: ends log := by
    refine ⟨ends (log.drop s.next), ?_⟩
    rw [← ends_append, List.take_append_drop]
  have h1 : s.settled.filter (sync c) <+: (ends log).filter (sync c) :=
    List.IsPrefix.trans ⟨_, ho.syn⟩ (he.filter _)
  have h2 : s.settled.filter (fun e => !sync c e) <+: (ends log).filter (fun e => !sync c e) :=
    List.IsPrefix.trans ⟨_, (List.append_assoc _ _ _).symm.trans ho.asy⟩ (he.filter _)
  refine ⟨h1, h2, ?_⟩
  intro hsys hck
  have hno : ∀ l : List (Nat × Bool), l.filter (fun e => !sync c e) = l := by
    intro l
    rw [List.filter_eq_self]
    intro e _
    simp [sync, hsys, hck]
  rw [hno, hno] at h2
  exact h2

/-- **C83.**  Whatever has happened so far, recovery need not stop: the startup process can finish what
it has to do for the record it has read, with moves of the workers only; the rest of the log can be
read; and all transactions which end in it can be settled. -/
theorem C83_no_deadlock {c : Cfg} {log : List Rec} {ms : List Move} {s : St} (hn : 0 < c.n)
    (hpr : Proper log) (hs : run c log init ms = some s) :
    (∃ ns s', run c log s ns = some s' ∧ s'.todo = [] ∧ s'.next = s.next ∧
      ∀ m ∈ ns, m = .act ∨ ∃ w, w < c.n ∧ (m = .work w ∨ m = .poll w ∨ m = .look w)) ∧
    (∃ ns s', run c log s ns = some s' ∧ s'.todo = [] ∧ s'.next = log.length ∧
      ∀ e, e ∈ ends log → e ∈ s'.settled) := by
  have hi := run_inv hn hpr (init_inv c log) hs
  have ho := run_ord hn hpr (init_inv c log) (init_ord c log) hs
  exact ⟨finish_todo hn hpr hi, finish_all hn hpr hi ho (run_next (Nat.zero_le _) hs)⟩

/-! ## Cases -/

/-- Check of `Proper`. -/
def properB : List Rec → Bool
  | [] => true
  | .fin x _ :: log => log.all (fun r => r.xid != x) && properB log
  | _ :: log => properB log

theorem proper_of {log : List Rec} (h : properB log = true) : Proper log := by
  induction log with
  | nil => intro i j x ok r _ hi; simp at hi
  | cons r log ih =>
    have ht : properB log = true := by
      cases r <;> simp [properB] at h
      · exact h
      · exact h
      · exact h
      · exact h.2
    intro i j x ok r' hij hi hj
    cases j with
    | zero => omega
    | succ j =>
      cases i with
      | zero =>
        simp at hi hj
        subst hi
        simp only [properB, Bool.and_eq_true, List.all_eq_true] at h
        have := h.1 r' (List.mem_of_getElem? hj)
        simpa using this
      | succ i =>
        simp at hi hj
        exact ih ht i j x ok r' (by omega) hi hj

/-- Two workers; transaction 3 changes system trees. -/
def exCfg : Cfg := { n := 2, hot := true, sys := fun x => x == 3, ckpt := fun _ => false }

/-- Two transactions at once, one with a savepoint, one aborted, then one which changes system trees. -/
def exLog : List Rec :=
  [.mod 1 0, .mod 2 1, .mod 1 1, .sp 1, .mod 1 2, .rb 1, .fin 1 true, .mod 3 0, .fin 2 false, .fin 3 true]

theorem exLog_proper : Proper exLog := proper_of (by decide +kernel)

/-- The second worker is late; the first one reaches the position by looking at the empty queue twice. -/
def exMoves : List Move :=
  [.read, .read, .read, .read, .act, .act, .work 0, .read, .read, .act, .act, .act,
   .work 0, .work 0, .work 0, .work 1, .work 1, .work 1, .work 1, .act,
   .read, .act, .act, .act, .act, .work 0, .drain 11, .work 1, .drain 13,
   .read, .read, .act, .act, .act, .poll 0, .look 0, .work 1, .drain 14,
   .poll 0, .look 0, .drain 17, .read, .act, .act, .work 0, .work 0, .poll 1, .look 1, .poll 1, .look 1,
   .act]

theorem exMoves_run : (run exCfg exLog init exMoves).isSome = true := by decide +kernel

theorem C81_case : ∃ s, run exCfg exLog init exMoves = some s ∧
    s.settled = [(1, true), (2, false), (3, true)] ∧ Whole exCfg exLog s 1 ∧ NothingLeft s 2 := by
  have hs : ((run exCfg exLog init exMoves).get exMoves_run).settled =
      [(1, true), (2, false), (3, true)] := by
    decide +kernel
  have hr := (Option.some_get exMoves_run).symm
  exact ⟨_, hr, hs, (C81_whole (by decide) rfl exLog_proper hr (x := 1) (ok := true) (by rw [hs]; simp)).1,
    (C81_whole (by decide) rfl exLog_proper hr (x := 2) (ok := false) (by rw [hs]; simp)).2⟩

theorem C82_case : ∃ s, run exCfg exLog init exMoves = some s ∧ s.settled.length = 3 ∧
    s.settled.filter (fun e => !(exCfg.sys e.1 || exCfg.ckpt e.1)) <+:
      (ends exLog).filter (fun e => !(exCfg.sys e.1 || exCfg.ckpt e.1)) := by
  obtain ⟨s, h1, h2, _⟩ := C81_case
  exact ⟨s, h1, by rw [h2]; rfl, (C82_order_partial (by decide) exLog_proper h1).2.1⟩

theorem exWait_run : (run exCfg exLog init (exMoves.take 12)).isSome = true := by decide +kernel

/-- In the middle, while the startup process waits for a worker to take a rollback to a savepoint. -/
theorem C83_case : ∃ s, run exCfg exLog init (exMoves.take 12) = some s ∧ s.todo = [.wait 11] ∧
    (step exCfg exLog s .act).isNone = true ∧
    ∃ ns s', run exCfg exLog s ns = some s' ∧ s'.todo = [] ∧ s'.next = exLog.length ∧
      ∀ e, e ∈ ends exLog → e ∈ s'.settled := by
  have hr := (Option.some_get exWait_run).symm
  exact ⟨_, hr, by decide +kernel, by decide +kernel, (C83_no_deadlock (by decide) exLog_proper hr).2⟩

/-- As `exCfg`, without queries during recovery. -/
def coldCfg : Cfg := { exCfg with hot := false }

theorem cold_run : (run coldCfg [.mod 1 0, .fin 1 true] init
    [.read, .read, .act, .act, .poll 0, .look 0, .poll 0, .look 0, .poll 1, .look 1, .poll 1, .look 1,
     .drain 3]).isSome = true := by decide +kernel

/-- C81 needs the condition: without hot standby the messages at the end of a transaction stay in the
buffer of the startup process, and workers reach positions before they have the changes.  No queries run
then. -/
theorem C81_needs_hot : ∃ (c : Cfg) (log : List Rec) (ms : List Move) (s : St), 0 < c.n ∧ Proper log ∧
    run c log init ms = some s ∧ (1, true) ∈ s.settled ∧ ¬ Whole c log s 1 := by
  refine ⟨coldCfg, [.mod 1 0, .fin 1 true], _, _, by decide, proper_of (by decide +kernel),
    (Option.some_get cold_run).symm, by decide +kernel, ?_⟩
  intro hw
  have := hw 0 0 rfl
  revert this
  decide +kernel

/-- Transaction 1 waits in `finished_list`; 3 changes system trees. -/
def lateLog : List Rec := [.mod 1 0, .fin 1 true, .mod 3 1, .fin 3 true]

theorem late_run : (run exCfg lateLog init
    [.read, .read, .act, .act, .act, .read, .read, .act, .act, .work 0, .work 0, .work 1, .work 1,
     .poll 0, .look 0, .poll 0, .look 0, .act]).isSome = true := by decide +kernel

/-- **C82** is false: a transaction which waits in `finished_list` is settled after a later one which
changes system trees. -/
theorem C82_violated : ∃ (c : Cfg) (log : List Rec) (ms : List Move) (s : St), 0 < c.n ∧ c.hot = true ∧
    Proper log ∧ run c log init ms = some s ∧ ends log = [(1, true), (3, true)] ∧
    s.settled = [(3, true)] :=
  ⟨exCfg, lateLog, _, _, by decide, rfl, proper_of (by decide +kernel), (Option.some_get late_run).symm, rfl,
    by decide +kernel⟩

end Verif.Workers
