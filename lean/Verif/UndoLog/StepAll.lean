import Verif.UndoLog.StepLog

/-!
# What holds in all runs
-/

namespace Verif.UndoLog

variable {c : Cfg} {s s' : St}

/-- A step that changes neither locations nor records. -/
theorem inv_of (h : Inv c s) (e1 : s'.core = s.core) (e2 : s'.used = s.used)
    (e3 : s'.recs = s.recs) (h1 : Procs c s') (h2 : Pins c s') (h3 : Sums c s') (h4 : Log c s')
    (h5 : ∀ p, s'.pc p ≠ .panic) : Inv c s' :=
  { base :=
      { marks := marks_mono h.base.marks (Nat.le_of_eq e2.symm) e1
        proc := h1
        pin := h2
        recs := by rw [e2, e3]; exact h.base.recs }
    sums := h3
    log := h4
    noPanic := h5 }

theorem upd_noPanic {p : Nat} {pc : Pc} {f : Nat → Pc} (h : ∀ q, f q ≠ .panic) (hp : pc ≠ .panic) :
    ∀ q, upd f p pc q ≠ .panic := by
  intro q
  unfold upd
  split
  · exact hp
  · exact h q

theorem inv_reserve {p k : Nat} (h : Inv c s) (hp : p < c.procs) : Inv c (reserve s p k) :=
  inv_of h
    (by unfold reserve; split <;> (try split) <;> (try split) <;> rfl)
    (by unfold reserve; split <;> (try split) <;> (try split) <;> rfl)
    (by unfold reserve; split <;> (try split) <;> (try split) <;> rfl)
    (proc_reserve h.base) (pin_reserve h.base) (sums_reserve h.sums hp)
    ((by
      unfold reserve
      split <;> (try split) <;> (try split) <;>
        first
        | exact h.log
        | exact log_same h.log rfl rfl rfl rfl rfl rfl))
    (by
      have hn := h.noPanic
      unfold reserve
      split <;> (try split) <;> (try split) <;>
        first
        | exact hn
        | exact upd_noPanic hn (by simp)
        | exact upd_noPanic hn (by split <;> simp))

theorem inv_giveUp {p : Nat} (h : Inv c s) (hp : p < c.procs) : Inv c (giveUp s p) :=
  inv_of h
    (by unfold giveUp; split <;> (try split) <;> (try split) <;> rfl)
    (by unfold giveUp; split <;> (try split) <;> (try split) <;> rfl)
    (by unfold giveUp; split <;> (try split) <;> (try split) <;> rfl)
    (proc_giveUp h.base) (pin_giveUp h.base) (sums_giveUp h.sums hp)
    ((by
      unfold giveUp
      split <;> (try split) <;> (try split) <;>
        first
        | exact h.log
        | exact log_same h.log rfl rfl rfl rfl rfl rfl))
    (by
      have hn := h.noPanic
      unfold giveUp
      split <;> (try split) <;> (try split) <;>
        first
        | exact hn
        | exact upd_noPanic hn (by simp)
        | exact upd_noPanic hn (by split <;> simp))

theorem inv_releaseSize {p : Nat} (h : Inv c s) (hp : p < c.procs) : Inv c (releaseSize s p) :=
  inv_of h
    (by unfold releaseSize; split <;> (try split) <;> (try split) <;> rfl)
    (by unfold releaseSize; split <;> (try split) <;> (try split) <;> rfl)
    (by unfold releaseSize; split <;> (try split) <;> (try split) <;> rfl)
    (proc_releaseSize h.base) (pin_releaseSize h.base) (sums_releaseSize h.sums hp)
    ((by
      unfold releaseSize
      split <;> (try split) <;> (try split) <;>
        first
        | exact h.log
        | exact log_same h.log rfl rfl rfl rfl rfl rfl))
    (by
      have hn := h.noPanic
      unfold releaseSize
      split <;> (try split) <;> (try split) <;>
        first
        | exact hn
        | exact upd_noPanic hn (by simp)
        | exact upd_noPanic hn (by split <;> simp))

theorem inv_bg {p k : Nat} (h : Inv c s) (hp : p < c.procs) : Inv c (bg s p k) :=
  inv_of h
    (by unfold bg; split <;> (try split) <;> (try split) <;> rfl)
    (by unfold bg; split <;> (try split) <;> (try split) <;> rfl)
    (by unfold bg; split <;> (try split) <;> (try split) <;> rfl)
    (proc_bg h.base) (pin_bg h.base) (sums_bg h.sums hp)
    ((by
      unfold bg
      split <;> (try split) <;> (try split) <;>
        first
        | exact h.log
        | exact log_same h.log rfl rfl rfl rfl rfl rfl))
    (by
      have hn := h.noPanic
      unfold bg
      split <;> (try split) <;> (try split) <;>
        first
        | exact hn
        | exact upd_noPanic hn (by simp)
        | exact upd_noPanic hn (by split <;> simp))

theorem inv_get {p k : Nat} (h : Inv c s) (hp : p < c.procs) : Inv c (get c s p k) :=
  inv_of h
    (by unfold get; split <;> (try split) <;> (try split) <;> rfl)
    (by unfold get; split <;> (try split) <;> (try split) <;> rfl)
    (by unfold get; split <;> (try split) <;> (try split) <;> rfl)
    (proc_get h.base) (pin_get h.base) (sums_get h.sums hp)
    ((by
      unfold get
      split <;> (try split) <;> (try split) <;>
        first
        | exact h.log
        | exact log_same h.log rfl rfl rfl rfl rfl rfl))
    (by
      have hn := h.noPanic
      unfold get
      split <;> (try split) <;> (try split) <;>
        first
        | exact hn
        | exact upd_noPanic hn (by simp)
        | exact upd_noPanic hn (by split <;> simp))

theorem inv_put {p k : Nat} (h : Inv c s) (hp : p < c.procs) : Inv c (put c s p k) :=
  inv_of h
    (by unfold put; split <;> (try split) <;> (try split) <;> rfl)
    (by unfold put; split <;> (try split) <;> (try split) <;> rfl)
    (by unfold put; split <;> (try split) <;> (try split) <;> rfl)
    (proc_put h.base) (pin_put h.base) (sums_put h.sums hp)
    (log_put h.base h.sums h.log)
    (by
      have hn := h.noPanic
      unfold put
      split <;> (try split) <;> (try split) <;>
        first
        | exact hn
        | exact upd_noPanic hn (by simp)
        | exact upd_noPanic hn (by split <;> simp))

theorem inv_release {p : Nat} (h : Inv c s) (hp : p < c.procs) : Inv c (release s p) :=
  inv_of h
    (by unfold release; split <;> (try split) <;> (try split) <;> rfl)
    (by unfold release; split <;> (try split) <;> (try split) <;> rfl)
    (by unfold release; split <;> (try split) <;> (try split) <;> rfl)
    (proc_release h.base) (pin_release h.base) (sums_release h.sums hp)
    ((by
      unfold release
      split <;> (try split) <;> (try split) <;>
        first
        | exact h.log
        | exact log_same h.log rfl rfl rfl rfl rfl rfl))
    (by
      have hn := h.noPanic
      unfold release
      split <;> (try split) <;> (try split) <;>
        first
        | exact hn
        | exact upd_noPanic hn (by simp)
        | exact upd_noPanic hn (by split <;> simp))

theorem inv_queue {p : Nat} (h : Inv c s) (hp : p < c.procs) : Inv c (queue s p) :=
  inv_of h
    (by unfold queue; split <;> (try split) <;> (try split) <;> rfl)
    (by unfold queue; split <;> (try split) <;> (try split) <;> rfl)
    (by unfold queue; split <;> (try split) <;> (try split) <;> rfl)
    (proc_queue h.base) (pin_queue h.base) (sums_queue h.sums hp)
    ((by
      unfold queue
      split <;> (try split) <;> (try split) <;>
        first
        | exact h.log
        | exact log_same h.log rfl rfl rfl rfl rfl rfl))
    (by
      have hn := h.noPanic
      unfold queue
      split <;> (try split) <;> (try split) <;>
        first
        | exact hn
        | exact upd_noPanic hn (by simp)
        | exact upd_noPanic hn (by split <;> simp))

theorem inv_wake {p : Nat} (h : Inv c s) (hp : p < c.procs) : Inv c (wake s p) :=
  inv_of h
    (by unfold wake; split <;> (try split) <;> (try split) <;> rfl)
    (by unfold wake; split <;> (try split) <;> (try split) <;> rfl)
    (by unfold wake; split <;> (try split) <;> (try split) <;> rfl)
    (proc_wake h.base) (pin_wake h.base) (sums_wake h.sums hp)
    ((by
      unfold wake
      split <;> (try split) <;> (try split) <;>
        first
        | exact h.log
        | exact log_same h.log rfl rfl rfl rfl rfl rfl))
    (by
      have hn := h.noPanic
      unfold wake
      split <;> (try split) <;> (try split) <;>
        first
        | exact hn
        | exact upd_noPanic hn (by simp)
        | exact upd_noPanic hn (by split <;> simp))

theorem inv_free {p : Nat} (h : Inv c s) : Inv c (free s p) :=
  inv_of h
    (by unfold free; split <;> (try split) <;> (try split) <;> rfl)
    (by unfold free; split <;> (try split) <;> (try split) <;> rfl)
    (by unfold free; split <;> (try split) <;> (try split) <;> rfl)
    (proc_free h.base) (pin_free h.base) (sums_free h.sums)
    ((by
      unfold free
      split <;> (try split) <;> (try split) <;>
        first
        | exact h.log
        | exact log_same h.log rfl rfl rfl rfl rfl rfl))
    (by
      have hn := h.noPanic
      unfold free
      split <;> (try split) <;> (try split) <;>
        first
        | exact hn
        | exact upd_noPanic hn (by simp)
        | exact upd_noPanic hn (by split <;> simp))

theorem inv_snap {p : Nat} (h : Inv c s) (hp : p < c.procs) : Inv c (snap s p) :=
  inv_of h
    (by unfold snap; split <;> (try split) <;> (try split) <;> rfl)
    (by unfold snap; split <;> (try split) <;> (try split) <;> rfl)
    (by unfold snap; split <;> (try split) <;> (try split) <;> rfl)
    (proc_snap h.base) (pin_snap h.base) (sums_snap h.sums hp)
    ((by
      unfold snap
      split <;> (try split) <;> (try split) <;>
        first
        | exact h.log
        | exact log_same h.log rfl rfl rfl rfl rfl rfl))
    (by
      have hn := h.noPanic
      unfold snap
      split <;> (try split) <;> (try split) <;>
        first
        | exact hn
        | exact upd_noPanic hn (by simp)
        | exact upd_noPanic hn (by split <;> simp))

theorem inv_drop {p k : Nat} (h : Inv c s) : Inv c (drop s p k) :=
  inv_of h
    (by unfold drop; split <;> (try split) <;> (try split) <;> rfl)
    (by unfold drop; split <;> (try split) <;> (try split) <;> rfl)
    (by unfold drop; split <;> (try split) <;> (try split) <;> rfl)
    (proc_drop h.base) (pin_drop h.base) (sums_drop h.sums)
    ((by
      unfold drop
      split <;> (try split) <;> (try split) <;>
        first
        | exact h.log
        | exact log_same h.log rfl rfl rfl rfl rfl rfl))
    (by
      have hn := h.noPanic
      unfold drop
      split <;> (try split) <;> (try split) <;>
        first
        | exact hn
        | exact upd_noPanic hn (by simp)
        | exact upd_noPanic hn (by split <;> simp))

theorem inv_reset {p : Nat} (h : Inv c s) : Inv c (reset s p) :=
  inv_of h
    (by unfold reset; split <;> (try split) <;> (try split) <;> rfl)
    (by unfold reset; split <;> (try split) <;> (try split) <;> rfl)
    (by unfold reset; split <;> (try split) <;> (try split) <;> rfl)
    (proc_reset h.base) (pin_reset h.base) (sums_reset h.sums)
    ((by
      unfold reset
      split <;> (try split) <;> (try split) <;>
        first
        | exact h.log
        | exact log_same h.log rfl rfl rfl rfl rfl rfl))
    (by
      have hn := h.noPanic
      unfold reset
      split <;> (try split) <;> (try split) <;>
        first
        | exact hn
        | exact upd_noPanic hn (by simp)
        | exact upd_noPanic hn (by split <;> simp))

theorem inv_clearMy {p : Nat} (h : Inv c s) : Inv c (clearMy s p) :=
  inv_of h
    (by unfold clearMy; split <;> (try split) <;> (try split) <;> rfl)
    (by unfold clearMy; split <;> (try split) <;> (try split) <;> rfl)
    (by unfold clearMy; split <;> (try split) <;> (try split) <;> rfl)
    (proc_clearMy h.base) (pin_clearMy h.base) (sums_clearMy h.sums)
    ((by
      unfold clearMy
      split <;> (try split) <;> (try split) <;>
        first
        | exact h.log
        | exact log_same h.log rfl rfl rfl rfl rfl rfl))
    (by
      have hn := h.noPanic
      unfold clearMy
      split <;> (try split) <;> (try split) <;>
        first
        | exact hn
        | exact upd_noPanic hn (by simp)
        | exact upd_noPanic hn (by split <;> simp))

theorem inv_write {p k : Nat} {vs : List Nat} (h : Inv c s) (hp : p < c.procs) : Inv c (write c s p k vs) :=
  inv_of h
    (by unfold write; split <;> (try split) <;> (try split) <;> rfl)
    (by unfold write; split <;> (try split) <;> (try split) <;> rfl)
    (by unfold write; split <;> (try split) <;> (try split) <;> rfl)
    (proc_write h.base) (pin_write h.base) (sums_write h.sums hp)
    ((by
      unfold write
      split <;> (try split) <;> (try split) <;>
        first
        | exact h.log
        | exact log_same h.log rfl rfl rfl rfl rfl rfl))
    (by
      have hn := h.noPanic
      unfold write
      split <;> (try split) <;> (try split) <;>
        first
        | exact hn
        | exact upd_noPanic hn (by simp)
        | exact upd_noPanic hn (by split <;> simp))

theorem inv_read {p k n : Nat} (h : Inv c s) (hp : p < c.procs) : Inv c (read c s p k n) :=
  inv_of h
    (by unfold read; split <;> (try split) <;> (try split) <;> rfl)
    (by unfold read; split <;> (try split) <;> (try split) <;> rfl)
    (by unfold read; split <;> (try split) <;> (try split) <;> rfl)
    (proc_read h.base) (pin_read h.base) (sums_read h.sums hp)
    ((by
      unfold read
      split <;> (try split) <;> (try split) <;>
        first
        | exact h.log
        | exact log_same h.log rfl rfl rfl rfl rfl rfl))
    (by
      have hn := h.noPanic
      unfold read
      split <;> (try split) <;> (try split) <;>
        first
        | exact hn
        | exact upd_noPanic hn (by simp)
        | exact upd_noPanic hn (by split <;> simp))

theorem inv_steal {q p : Nat} (h : Inv c s) (hq : q < c.procs) (hp : p < c.procs) : Inv c (steal s q p) :=
  inv_of h
    (by unfold steal; split <;> (try split) <;> (try split) <;> rfl)
    (by unfold steal; split <;> (try split) <;> (try split) <;> rfl)
    (by unfold steal; split <;> (try split) <;> (try split) <;> rfl)
    (proc_steal h.base) (pin_steal h.base) (sums_steal h.sums hq hp)
    ((by
      unfold steal
      split <;> (try split) <;> (try split) <;>
        first
        | exact h.log
        | exact log_same h.log rfl rfl rfl rfl rfl rfl))
    (by
      have hn := h.noPanic
      unfold steal
      split <;> (try split) <;> (try split) <;>
        first
        | exact hn
        | exact upd_noPanic hn (by simp)
        | exact upd_noPanic hn (by split <;> simp))

theorem inv_hand {q p : Nat} (h : Inv c s) : Inv c (hand s q p) :=
  inv_of h
    (by unfold hand; split <;> (try split) <;> (try split) <;> rfl)
    (by unfold hand; split <;> (try split) <;> (try split) <;> rfl)
    (by unfold hand; split <;> (try split) <;> (try split) <;> rfl)
    (proc_hand h.base) (pin_hand h.base) (sums_hand h.sums)
    ((by
      unfold hand
      split <;> (try split) <;> (try split) <;>
        first
        | exact h.log
        | exact log_same h.log rfl rfl rfl rfl rfl rfl))
    (by
      have hn := h.noPanic
      unfold hand
      split <;> (try split) <;> (try split) <;>
        first
        | exact hn
        | exact upd_noPanic hn (by simp)
        | exact upd_noPanic hn (by split <;> simp))

theorem inv_lose {x : Nat} (h : Inv c s) : Inv c (lose s x) :=
  inv_of h
    (by unfold lose; split <;> (try split) <;> (try split) <;> rfl)
    (by unfold lose; split <;> (try split) <;> (try split) <;> rfl)
    (by unfold lose; split <;> (try split) <;> (try split) <;> rfl)
    (proc_lose h.base) (pin_lose h.base) (sums_lose h.sums)
    ((by
      unfold lose
      split <;> (try split) <;> (try split) <;>
        first
        | exact h.log
        | exact log_same h.log rfl rfl rfl rfl rfl rfl))
    (by
      have hn := h.noPanic
      unfold lose
      split <;> (try split) <;> (try split) <;>
        first
        | exact hn
        | exact upd_noPanic hn (by simp)
        | exact upd_noPanic hn (by split <;> simp))

theorem inv_umStart {cl : Bool} (h : Inv c s) : Inv c (umStart s cl) :=
  { base :=
      { marks := marks_umStart h.base.marks
        proc := proc_umStart h.base
        pin := pin_umStart h.base
        recs := by unfold umStart; split <;> exact h.base.recs }
    sums := sums_umStart h.sums
    log := by
      unfold umStart
      split
      · exact log_same h.log rfl rfl rfl rfl rfl rfl
      · exact h.log
    noPanic := by unfold umStart; split <;> exact h.noPanic }

theorem inv_umGo (h : Inv c s) : Inv c (umGo c s) :=
  { base :=
      { marks := marks_umGo h.base.marks
        proc := proc_umGo h.base
        pin := pin_umGo h.base
        recs := by
          unfold umGo
          split
          · exact h.base.recs
          · split <;> (try split) <;> exact h.base.recs }
    sums := sums_umGo h.base h.sums
    log := log_umGo h.base h.log
    noPanic := by
      unfold umGo
      split
      · exact h.noPanic
      · split <;> (try split) <;> exact h.noPanic }

theorem inv_evGo (h : Inv c s) : Inv c (evGo c s) :=
  { base :=
      { marks := marks_evGo h.base.marks
        proc := proc_evGo h.base
        pin := pin_evGo h.base
        recs := by
          unfold evGo
          split
          · exact h.base.recs
          · split <;> (try split) <;> (try split) <;> (try split) <;> (try split) <;>
              exact h.base.recs }
    sums := sums_evGo h.base h.sums
    log := log_evGo h.base h.log
    noPanic := by
      have hn := h.noPanic
      unfold evGo
      split
      · exact hn
      · split <;> (try split) <;> (try split) <;> (try split) <;> (try split) <;>
          first
          | exact hn
          | exact upd_noPanic hn (by simp) }

theorem recs_attempt {p n : Nat} {r : Pc} (h : Base c s) :
    ∀ x, x ∈ (attempt c s p n r).recs → x.loc + x.n ≤ (attempt c s p n r).used := by
  unfold attempt
  split
  · exact h.recs
  · split
    · intro x hx
      rcases List.mem_cons.1 hx with rfl | hx
      · exact Nat.le_refl _
      · have := h.recs x hx; dsimp only; omega
    · intro x hx
      have := h.recs x hx; dsimp only; omega

theorem used_attempt {p n : Nat} {r : Pc} : s.used ≤ (attempt c s p n r).used := by
  unfold attempt
  split
  · exact Nat.le_refl _
  · split <;> (dsimp only; omega)

theorem core_attempt {p n : Nat} {r : Pc} : (attempt c s p n r).core = s.core := by
  unfold attempt
  split
  · rfl
  · split <;> rfl

theorem noPanic_attempt {p n : Nat} {r : Pc} (h : ∀ q, s.pc q ≠ .panic) (hn : n ≤ s.sz p)
    (hr : r ≠ .panic) : ∀ q, (attempt c s p n r).pc q ≠ .panic := by
  unfold attempt
  rw [if_neg (by omega)]
  split <;> exact upd_noPanic h (by first | exact hr | simp)

set_option maxHeartbeats 1000000 in
theorem marks_go {p : Nat} (h : Base c s) : Marks c (go c s p) := by
  have hpp := h.proc p
  unfold go
  split
  all_goals try exact h.marks
  all_goals rename_i hpc; rw [hpc] at hpp
  all_goals first
    | exact marks_mono h.marks used_attempt core_attempt
    | skip
  all_goals (try split)
  all_goals first
    | exact h.marks
    | exact marks_mono h.marks (Nat.le_refl _) rfl
    | skip
  · have h1 := hpp.ready _ _ rfl
    exact marks_evictStart h.marks (by assumption) (by omega) (hpp.held _ rfl)
  · exact marks_evictStart h.marks (by assumption) (hpp.bgWant _ _ rfl) (hpp.held _ rfl)

theorem recs_go {p : Nat} (h : Base c s) :
    ∀ x, x ∈ (go c s p).recs → x.loc + x.n ≤ (go c s p).used := by
  unfold go
  split <;> (try exact h.recs)
  all_goals (try exact recs_attempt h)
  all_goals (try split) <;> exact h.recs

theorem noPanic_go {p : Nat} (h : Inv c s) : ∀ q, (go c s p).pc q ≠ .panic := by
  have hn := h.noPanic
  have hpp := h.base.proc p
  unfold go
  split <;> (try exact hn)
  all_goals rename_i hpc; rw [hpc] at hpp
  all_goals first
    | exact noPanic_attempt hn (hpp.need _ rfl) (by simp)
    | exact noPanic_attempt hn (by have := hpp.need _ rfl; omega) (by simp)
    | skip
  all_goals (try split)
  all_goals first
    | exact hn
    | exact upd_noPanic hn (by simp)
    | exact upd_noPanic hn (by split <;> simp)

theorem inv_go {p : Nat} (h : Inv c s) (hp : p < c.procs) : Inv c (go c s p) :=
  have hag := fun n l e => again_fits (n := n) (l := l) h.base h.sums hp e
  { base :=
      { marks := marks_go h.base
        proc := proc_go h.base hag
        pin := pin_go h.base hp hag
        recs := recs_go h.base }
    sums := sums_go h.base h.sums hp
    log := log_go h.base h.log
    noPanic := noPanic_go h }

theorem inv_step {a : Act} (h : Inv c s) : Inv c (step c s a) := by
  unfold step
  split
  · rename_i hp
    cases a <;> simp only [Act.procs, List.all_cons, List.all_nil, Bool.and_true, Bool.and_eq_true,
      decide_eq_true_eq] at hp <;> dsimp only [act]
    all_goals first
      | exact inv_go h hp
      | exact inv_reserve h hp
      | exact inv_giveUp h hp
      | exact inv_releaseSize h hp
      | exact inv_bg h hp
      | exact inv_get h hp
      | exact inv_put h hp
      | exact inv_release h hp
      | exact inv_queue h hp
      | exact inv_steal h hp.1 hp.2
      | exact inv_hand h
      | exact inv_wake h hp
      | exact inv_free h
      | exact inv_snap h hp
      | exact inv_drop h
      | exact inv_reset h
      | exact inv_clearMy h
      | exact inv_write h hp
      | exact inv_read h hp
      | exact inv_umStart h
      | exact inv_umGo h
      | exact inv_evGo h
      | exact inv_lose h
  · exact h

theorem inv_run {as : List Act} : ∀ {s : St}, Inv c s → Inv c (runActs c s as) := by
  induction as with
  | nil => exact fun h => h
  | cons a as ih => exact fun h => ih (inv_step h)

theorem sumTo_zero : ∀ n, sumTo n (fun _ => 0) = 0
  | 0 => rfl
  | n + 1 => by rw [sumTo, sumTo_zero n]

theorem inv_init (n : Nat) : Inv c (init n) := by
  refine ⟨⟨?_, ?_, ?_, ?_⟩, ?_, ?_, ?_⟩
  · constructor <;> simp [init]
  · intro p; exact POk.idle (by simp [init]) (by simp [init])
  · intro q x hx; simp [init, Pc.pinLoc] at hx
  · simp [init]
  · constructor <;> simp [init, Pc.pend, sumTo_zero]
    intro l hl
    rw [sumTo_congr (g := fun _ => 0) c.procs (fun p _ => by simp [cnt])]
    rw [sumTo_zero]; omega
  · constructor <;> simp [init]
  · simp [init]

end Verif.UndoLog
