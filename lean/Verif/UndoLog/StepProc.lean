import Verif.UndoLog.StepMarks

/-!
# What holds of every process, holds in all runs
-/

namespace Verif.UndoLog

variable {c : Cfg} {s s' : St}

theorem POk.mono {u u' sz : Nat} {rs rs' : List Rec} {pc : Pc} {tr res : Option Nat}
    (h : POk c u rs pc tr res sz) (hu : u ≤ u') (hr : ∀ r, r ∈ rs → r ∈ rs') :
    POk c u' rs' pc tr res sz :=
  { held := fun m hm => Nat.le_trans (h.held m hm) hu
    bgWant := h.bgWant
    ready := h.ready
    own := fun t ht => Nat.le_trans (h.own t ht) hu
    ownRes := fun t ht => Nat.le_trans (h.ownRes t ht) hu
    toPub := fun t ht => Nat.le_trans (h.toPub t ht) hu
    made := fun r hm => hr r (h.made r hm)
    need := h.need
    want := h.want
    hasRes := h.hasRes
    hasTr := h.hasTr
    again := fun n l e => ⟨Nat.le_trans (h.again n l e).1 hu, (h.again n l e).2⟩
    fill := h.fill }

theorem POk.idle {u sz : Nat} {rs : List Rec} {tr res : Option Nat}
    (h1 : ∀ t, tr = some t → t ≤ u) (h2 : ∀ t, res = some t → t ≤ u) :
    POk c u rs .idle tr res sz := by
  constructor <;> grind [Pc.heldM, Pc.readyM, Pc.toPub, Pc.making, Pc.need, Pc.want, Pc.hasRes, Pc.hasTr]

/-- What process `p` does leaves the others alone. -/
theorem proc_one {p : Nat} (h : Base c s) (hu : s.used ≤ s'.used)
    (hr : ∀ r, r ∈ s.recs → r ∈ s'.recs)
    (hpc : ∀ q, q ≠ p → s'.pc q = s.pc q) (htr : ∀ q, q ≠ p → s'.tr q = s.tr q)
    (hres : ∀ q, q ≠ p → s'.res q = s.res q) (hsz : ∀ q, q ≠ p → s'.sz q = s.sz q)
    (hp : POk c s'.used s'.recs (s'.pc p) (s'.tr p) (s'.res p) (s'.sz p)) :
    ∀ q, POk c s'.used s'.recs (s'.pc q) (s'.tr q) (s'.res q) (s'.sz q) := by
  intro q
  by_cases e : q = p
  · subst e; exact hp
  · rw [hpc q e, htr q e, hres q e, hsz q e]
    exact (h.proc q).mono hu hr

theorem upd_self {α : Type} {f : Nat → α} {i : Nat} {v : α} : upd f i v i = v := by simp [upd]

theorem upd_ne {α : Type} {f : Nat → α} {i j : Nat} {v : α} (h : j ≠ i) : upd f i v j = f j := by
  simp [upd, h]

/-- A process that only moves on. -/
theorem proc_to {p : Nat} {pc : Pc} (h : Base c s)
    (hp : POk c s.used s.recs pc (s.tr p) (s.res p) (s.sz p)) :
    ∀ q, POk c (to s p pc).used (to s p pc).recs ((to s p pc).pc q) ((to s p pc).tr q)
      ((to s p pc).res q) ((to s p pc).sz q) :=
  proc_one (p := p) h (Nat.le_refl _) (fun _ h => h) (fun q hq => upd_ne hq) (fun _ _ => rfl)
    (fun _ _ => rfl) (fun _ _ => rfl) (by simp only [to, upd_self]; exact hp)


theorem complete_used {loc n : Nat} (h : Base c s) (hc : complete c s loc n = true) :
    loc + n ≤ s.used := by
  simp only [complete, List.any_eq_true, Bool.and_eq_true, decide_eq_true_eq] at hc
  obtain ⟨r, hr, h1, _⟩ := hc
  have := h.recs r hr
  omega

/-- What holds of every process. -/
def Procs (c : Cfg) (s : St) : Prop :=
  ∀ q, POk c s.used s.recs (s.pc q) (s.tr q) (s.res q) (s.sz q)

theorem proc_reserve {p k : Nat} (h : Base c s) : Procs c (reserve s p k) := by
  have hm3 := h.marks.resUsed
  have hp := h.proc p
  unfold reserve
  split <;> (try exact h.proc)
  rename_i hpc
  rw [hpc] at hp
  all_goals (try split) <;> (try split)
  all_goals try exact h.proc
  all_goals refine proc_one (p := p) h ?_ ?_ ?_ ?_ ?_ ?_ ?_
  all_goals first
    | exact Nat.le_refl _
    | exact fun _ h => h
    | exact fun q hq => rfl
    | exact fun q hq => upd_ne hq
    | skip
  all_goals simp only [to, upd_self]
  all_goals (cases hp; constructor)
  all_goals grind [Pc.heldM, Pc.readyM, Pc.toPub, Pc.making, Pc.need, Pc.want, Pc.hasRes, Pc.hasTr]

theorem proc_giveUp {p : Nat} (h : Base c s) : Procs c (giveUp s p) := by
  have hm3 := h.marks.resUsed
  have hp := h.proc p
  unfold giveUp
  split <;> (try exact h.proc)
  rename_i hpc
  rw [hpc] at hp
  all_goals (try split) <;> (try split)
  all_goals try exact h.proc
  all_goals refine proc_one (p := p) h ?_ ?_ ?_ ?_ ?_ ?_ ?_
  all_goals first
    | exact Nat.le_refl _
    | exact fun _ h => h
    | exact fun q hq => rfl
    | exact fun q hq => upd_ne hq
    | skip
  all_goals simp only [to, upd_self]
  all_goals (cases hp; constructor)
  all_goals grind [Pc.heldM, Pc.readyM, Pc.toPub, Pc.making, Pc.need, Pc.want, Pc.hasRes, Pc.hasTr]

theorem proc_releaseSize {p : Nat} (h : Base c s) : Procs c (releaseSize s p) := by
  have hm3 := h.marks.resUsed
  have hp := h.proc p
  unfold releaseSize
  split <;> (try exact h.proc)
  rename_i hpc
  rw [hpc] at hp
  all_goals (try split) <;> (try split)
  all_goals try exact h.proc
  all_goals refine proc_one (p := p) h ?_ ?_ ?_ ?_ ?_ ?_ ?_
  all_goals first
    | exact Nat.le_refl _
    | exact fun _ h => h
    | exact fun q hq => rfl
    | exact fun q hq => upd_ne hq
    | skip
  all_goals simp only [to, upd_self]
  all_goals (cases hp; constructor)
  all_goals grind [Pc.heldM, Pc.readyM, Pc.toPub, Pc.making, Pc.need, Pc.want, Pc.hasRes, Pc.hasTr]

theorem proc_bg {p k : Nat} (h : Base c s) : Procs c (bg s p k) := by
  have hm3 := h.marks.resUsed
  have hp := h.proc p
  unfold bg
  split <;> (try exact h.proc)
  rename_i hpc
  rw [hpc] at hp
  all_goals (try split) <;> (try split)
  all_goals try exact h.proc
  all_goals refine proc_one (p := p) h ?_ ?_ ?_ ?_ ?_ ?_ ?_
  all_goals first
    | exact Nat.le_refl _
    | exact fun _ h => h
    | exact fun q hq => rfl
    | exact fun q hq => upd_ne hq
    | skip
  all_goals simp only [to, upd_self]
  all_goals (cases hp; constructor)
  all_goals grind [Pc.heldM, Pc.readyM, Pc.toPub, Pc.making, Pc.need, Pc.want, Pc.hasRes, Pc.hasTr]

theorem proc_get {p k : Nat} (h : Base c s) : Procs c (get c s p k) := by
  have hm3 := h.marks.resUsed
  have hp := h.proc p
  unfold get
  split <;> (try exact h.proc)
  rename_i hpc
  rw [hpc] at hp
  all_goals (try split) <;> (try split)
  all_goals try exact h.proc
  all_goals refine proc_one (p := p) h ?_ ?_ ?_ ?_ ?_ ?_ ?_
  all_goals first
    | exact Nat.le_refl _
    | exact fun _ h => h
    | exact fun q hq => rfl
    | exact fun q hq => upd_ne hq
    | skip
  all_goals simp only [to, upd_self]
  all_goals (cases hp; constructor)
  all_goals first
    | grind [Pc.heldM, Pc.readyM, Pc.toPub, Pc.making, Pc.need, Pc.want, Pc.hasRes, Pc.hasTr]
    | (intro ht
       cases e : s.tr p with
       | none => simp [Pc.hasTr, e] at ht
       | some l => exact ⟨l, rfl⟩)

theorem proc_put {p k : Nat} (h : Base c s) : Procs c (put c s p k) := by
  have hm3 := h.marks.resUsed
  have hp := h.proc p
  unfold put
  split <;> (try exact h.proc)
  rename_i hpc
  rw [hpc] at hp
  all_goals (try split) <;> (try split)
  all_goals try exact h.proc
  all_goals refine proc_one (p := p) h ?_ ?_ ?_ ?_ ?_ ?_ ?_
  all_goals first
    | exact Nat.le_refl _
    | exact fun _ h => h
    | exact fun q hq => rfl
    | exact fun q hq => upd_ne hq
    | skip
  all_goals simp only [to, upd_self]
  all_goals (cases hp; constructor)
  all_goals grind [Pc.heldM, Pc.readyM, Pc.toPub, Pc.making, Pc.need, Pc.want, Pc.hasRes, Pc.hasTr]

theorem proc_release {p : Nat} (h : Base c s) : Procs c (release s p) := by
  have hm3 := h.marks.resUsed
  have hp := h.proc p
  unfold release
  split <;> (try exact h.proc)
  rename_i hpc
  rw [hpc] at hp
  all_goals (try split) <;> (try split)
  all_goals try exact h.proc
  all_goals refine proc_one (p := p) h ?_ ?_ ?_ ?_ ?_ ?_ ?_
  all_goals first
    | exact Nat.le_refl _
    | exact fun _ h => h
    | exact fun q hq => rfl
    | exact fun q hq => upd_ne hq
    | skip
  all_goals simp only [to, upd_self]
  all_goals (cases hp; constructor)
  all_goals grind [Pc.heldM, Pc.readyM, Pc.toPub, Pc.making, Pc.need, Pc.want, Pc.hasRes, Pc.hasTr]

theorem proc_queue {p : Nat} (h : Base c s) : Procs c (queue s p) := by
  have hm3 := h.marks.resUsed
  have hp := h.proc p
  unfold queue
  split <;> (try exact h.proc)
  rename_i hpc
  rw [hpc] at hp
  all_goals (try split) <;> (try split)
  all_goals try exact h.proc
  all_goals refine proc_one (p := p) h ?_ ?_ ?_ ?_ ?_ ?_ ?_
  all_goals first
    | exact Nat.le_refl _
    | exact fun _ h => h
    | exact fun q hq => rfl
    | exact fun q hq => upd_ne hq
    | skip
  all_goals simp only [to, upd_self]
  all_goals (cases hp; constructor)
  all_goals grind [Pc.heldM, Pc.readyM, Pc.toPub, Pc.making, Pc.need, Pc.want, Pc.hasRes, Pc.hasTr]

theorem proc_wake {p : Nat} (h : Base c s) : Procs c (wake s p) := by
  have hm3 := h.marks.resUsed
  have hp := h.proc p
  unfold wake
  split <;> (try exact h.proc)
  rename_i hpc
  rw [hpc] at hp
  all_goals (try split) <;> (try split)
  all_goals try exact h.proc
  all_goals refine proc_one (p := p) h ?_ ?_ ?_ ?_ ?_ ?_ ?_
  all_goals first
    | exact Nat.le_refl _
    | exact fun _ h => h
    | exact fun q hq => rfl
    | exact fun q hq => upd_ne hq
    | skip
  all_goals simp only [to, upd_self]
  all_goals (cases hp; constructor)
  all_goals grind [Pc.heldM, Pc.readyM, Pc.toPub, Pc.making, Pc.need, Pc.want, Pc.hasRes, Pc.hasTr]

theorem proc_free {p : Nat} (h : Base c s) : Procs c (free s p) := by
  have hm3 := h.marks.resUsed
  have hp := h.proc p
  unfold free
  split <;> (try exact h.proc)
  rename_i hpc
  rw [hpc] at hp
  all_goals (try split) <;> (try split)
  all_goals try exact h.proc
  all_goals refine proc_one (p := p) h ?_ ?_ ?_ ?_ ?_ ?_ ?_
  all_goals first
    | exact Nat.le_refl _
    | exact fun _ h => h
    | exact fun q hq => rfl
    | exact fun q hq => upd_ne hq
    | skip
  all_goals simp only [to, upd_self]
  all_goals (cases hp; constructor)
  all_goals grind [Pc.heldM, Pc.readyM, Pc.toPub, Pc.making, Pc.need, Pc.want, Pc.hasRes, Pc.hasTr]

theorem proc_snap {p : Nat} (h : Base c s) : Procs c (snap s p) := by
  have hm3 := h.marks.resUsed
  have hp := h.proc p
  unfold snap
  split <;> (try exact h.proc)
  rename_i hpc
  rw [hpc] at hp
  all_goals (try split) <;> (try split)
  all_goals try exact h.proc
  all_goals refine proc_one (p := p) h ?_ ?_ ?_ ?_ ?_ ?_ ?_
  all_goals first
    | exact Nat.le_refl _
    | exact fun _ h => h
    | exact fun q hq => rfl
    | exact fun q hq => upd_ne hq
    | skip
  all_goals simp only [to, upd_self]
  all_goals (cases hp; constructor)
  all_goals grind [Pc.heldM, Pc.readyM, Pc.toPub, Pc.making, Pc.need, Pc.want, Pc.hasRes, Pc.hasTr]

theorem proc_drop {p k : Nat} (h : Base c s) : Procs c (drop s p k) := by
  unfold drop
  split <;> exact h.proc

theorem proc_reset {p : Nat} (h : Base c s) : Procs c (reset s p) := by
  have hm3 := h.marks.resUsed
  have hp := h.proc p
  unfold reset
  split <;> (try exact h.proc)
  rename_i hpc
  rw [hpc] at hp
  all_goals (try split) <;> (try split)
  all_goals try exact h.proc
  all_goals refine proc_one (p := p) h ?_ ?_ ?_ ?_ ?_ ?_ ?_
  all_goals first
    | exact Nat.le_refl _
    | exact fun _ h => h
    | exact fun q hq => rfl
    | exact fun q hq => upd_ne hq
    | skip
  all_goals simp only [to, upd_self]
  all_goals (cases hp; constructor)
  all_goals grind [Pc.heldM, Pc.readyM, Pc.toPub, Pc.making, Pc.need, Pc.want, Pc.hasRes, Pc.hasTr]

theorem proc_clearMy {p : Nat} (h : Base c s) : Procs c (clearMy s p) := by
  unfold clearMy
  split <;> exact h.proc

theorem proc_write {p k : Nat} {vs : List Nat} (h : Base c s) : Procs c (write c s p k vs) := by
  have hm3 := h.marks.resUsed
  have hp := h.proc p
  unfold write
  split <;> (try exact h.proc)
  rename_i hpc
  rw [hpc] at hp
  all_goals (try split) <;> (try split)
  all_goals try exact h.proc
  all_goals refine proc_one (p := p) h ?_ ?_ ?_ ?_ ?_ ?_ ?_
  all_goals first
    | exact Nat.le_refl _
    | exact fun _ h => h
    | exact fun q hq => rfl
    | exact fun q hq => upd_ne hq
    | skip
  all_goals simp only [to, upd_self]
  all_goals (cases hp; constructor)
  all_goals grind [Pc.heldM, Pc.readyM, Pc.toPub, Pc.making, Pc.need, Pc.want, Pc.hasRes, Pc.hasTr, complete_used]

theorem proc_read {p k n : Nat} (h : Base c s) : Procs c (read c s p k n) := by
  have hm3 := h.marks.resUsed
  have hp := h.proc p
  unfold read
  split <;> (try exact h.proc)
  rename_i hpc
  rw [hpc] at hp
  all_goals (try split) <;> (try split)
  all_goals try exact h.proc
  all_goals refine proc_one (p := p) h ?_ ?_ ?_ ?_ ?_ ?_ ?_
  all_goals first
    | exact Nat.le_refl _
    | exact fun _ h => h
    | exact fun q hq => rfl
    | exact fun q hq => upd_ne hq
    | skip
  all_goals simp only [to, upd_self]
  all_goals (cases hp; constructor)
  all_goals grind [Pc.heldM, Pc.readyM, Pc.toPub, Pc.making, Pc.need, Pc.want, Pc.hasRes, Pc.hasTr, complete_used]

set_option maxHeartbeats 4000000 in
theorem proc_go {p : Nat} (h : Base c s)
    (hag : ∀ n l, s.pc p = .again n l → s.used % c.size < (s.used + n) % c.size) :
    Procs c (go c s p) := by
  have hm1 := h.marks.wWip
  have hm2 := h.marks.wipUsed
  have hm3 := h.marks.resUsed
  have hm4 := h.marks.trUsed
  have hp := h.proc p
  unfold go
  split
  all_goals try exact h.proc
  all_goals rename_i hpc; rw [hpc] at hp
  all_goals (try unfold attempt) 
  all_goals (try split) <;> (try split)
  all_goals try exact h.proc
  all_goals
    refine proc_one (p := p) h ?_ ?_ ?_ ?_ ?_ ?_ ?_
  all_goals first
    | exact Nat.le_refl _
    | exact fun _ h => h
    | exact fun _ h => List.mem_cons_of_mem _ h
    | exact fun q hq => rfl
    | exact fun q hq => upd_ne hq
    | (intro q hq; simp only [to, evictStart, upd, if_neg hq]; done)
    | (simp only [to, evictStart]; omega)
    | skip
  all_goals simp only [to, upd_self, evictStart]
  all_goals first
    | exact POk.idle hp.own hp.ownRes
    | skip
  all_goals (clear h; cases hp; constructor)
  all_goals grind [Pc.heldM, Pc.readyM, Pc.toPub, Pc.making, Pc.need, Pc.want, Pc.hasRes, Pc.hasTr]

theorem proc_steal {q p : Nat} (h : Base c s) : Procs c (steal s q p) := by
  unfold steal
  split
  · intro i
    have hi := h.proc i
    dsimp only
    split
    · subst i
      rename_i e; rw [e] at hi ⊢
      cases hi; constructor <;>
        grind [Pc.heldM, Pc.readyM, Pc.toPub, Pc.making, Pc.need, Pc.want, Pc.hasRes, Pc.hasTr]
    · split
      · subst i
        rename_i e _ _; rw [e] at hi ⊢
        exact POk.idle hi.own hi.ownRes
      · exact hi
  · exact h.proc

theorem proc_hand {q p : Nat} (h : Base c s) : Procs c (hand s q p) := by
  unfold hand
  split
  · split
    · rename_i loc n e1 e2 hl
      intro i
      have hi := h.proc i
      have hq := (h.proc q).made ⟨loc, n⟩ (by rw [e1]; rfl)
      have := h.recs _ hq
      dsimp only at this ⊢
      by_cases e : i = p
      · subst e
        rw [e2] at hi ⊢
        rw [upd_self]
        have ho : ∀ t, some ((s.tr i).getD loc) = some t → t ≤ s.used := by
          intro t ht
          cases e : s.tr i with
          | none => simp [e] at ht; omega
          | some l =>
            simp [e] at ht
            have := hi.own l e
            omega
        cases hi; constructor <;>
          grind [Pc.heldM, Pc.readyM, Pc.toPub, Pc.making, Pc.need, Pc.want, Pc.hasRes, Pc.hasTr]
      · rw [upd_ne e]; exact hi
    · exact h.proc
  · exact h.proc

theorem proc_umStart {cl : Bool} (h : Base c s) : Procs c (umStart s cl) := by
  unfold umStart; split <;> exact h.proc

theorem proc_lose {x : Nat} (h : Base c s) : Procs c (lose s x) := by
  unfold lose; split <;> exact h.proc

theorem proc_umGo (h : Base c s) : Procs c (umGo c s) := by
  unfold umGo
  split
  · exact h.proc
  · split <;> (try split) <;> exact h.proc

theorem proc_evDone {e : Ev} (h : Base c s) : Procs c (evDone s e) :=
  proc_to h (POk.idle (h.proc e.owner).own (h.proc e.owner).ownRes)

theorem proc_evGo (h : Base c s) : Procs c (evGo c s) := by
  unfold evGo
  split
  · exact h.proc
  · rename_i e he
    split <;> (try split) <;> (try split) <;> (try split) <;> (try split) <;>
      first
      | exact h.proc
      | exact proc_evDone h

end Verif.UndoLog
