import Verif.S3Backup.Big
import Verif.S3Backup.SmallProofs

/-! # The workers of a backup: invariant of all interleavings -/

namespace Verif.S3Backup

/-- The sum over the workers. -/
def tot : Nat → (Nat → Nat) → Nat
  | 0, _ => 0
  | n + 1, f => tot n f + f n

theorem tot_congr : ∀ (n : Nat) {f g : Nat → Nat}, (∀ v, v < n → f v = g v) → tot n f = tot n g
  | 0, _, _, _ => rfl
  | n + 1, f, g, h => by
    simp only [tot]
    rw [tot_congr n (fun v hv => h v (by omega)), h n (by omega)]

theorem tot_upd : ∀ (n : Nat) {f g : Nat → Nat} {w : Nat}, w < n → (∀ v, v ≠ w → g v = f v) →
    tot n g + f w = tot n f + g w
  | 0, _, _, _, h, _ => by omega
  | n + 1, f, g, w, h, hg => by
    simp only [tot]
    by_cases hw : w = n
    · subst hw
      rw [tot_congr w (f := g) (g := f) (fun v hv => hg v (by omega))]
      omega
    · have := tot_upd n (f := f) (g := g) (w := w) (by omega) hg
      rw [hg n (by omega)]
      omega

theorem tot_zero : ∀ (n : Nat) {f : Nat → Nat}, tot n f = 0 → ∀ w, w < n → f w = 0
  | 0, _, _, _, h => by omega
  | n + 1, f, h, w, hw => by
    simp only [tot] at h
    by_cases hn : w = n
    · subst hn
      omega
    · exact tot_zero n (by omega) w (by omega)

theorem count_flatMap (e : Entry) (f : Nat → List Entry) : ∀ n : Nat,
    ((List.range n).flatMap f).count e = tot n (fun w => (f w).count e)
  | 0 => rfl
  | n + 1 => by
    rw [List.range_succ, List.flatMap_append, List.count_append, count_flatMap e f n]
    simp [tot]

section
variable (H : Bytes → Bytes) (n : Nat) (T : List Entry)

/-- How often a worker holds the entry: in its task, its buffer, its file. -/
def wm (e : Entry) (x : Worker) (l : List Entry) : Nat :=
  (match x.cur with
    | some p => if x.pc = 0 ∧ ent H n T p = e then 1 else 0
    | none => 0) + (x.buf.getD []).count e + l.count e

/-- How often the entry is anywhere. -/
def meas (nw : Nat) (s : BigSt) (e : Entry) : Nat :=
  (s.sched.map (ent H n T)).count e + (s.queue.map (ent H n T)).count e
    + tot nw (fun w => wm H n T e (s.ws w) (s.wfile w))

/-- Number of tasks a worker has. -/
def busy (x : Worker) : Nat := if x.cur.isSome then 1 else 0

/-- The invariant of a backup; `nr` says that no worker is restarted. -/
structure BInv (nw : Nat) (F : List (Bytes × Bytes)) (nr : Prop) (s : BigSt) : Prop where
  le : ∀ e, meas H n T nw s e ≤ (F.map (ent H n T)).count e
  same : nr → ∀ e, meas H n T nw s e = (F.map (ent H n T)).count e
  num : s.cnt + (s.lag : Int) = ((s.queue.length + tot nw (fun w => busy (s.ws w)) : Nat) : Int)
  flag : ∀ w, w < nw → (s.ws w).buf ≠ none → (s.ws w).flag = true
  held : ∀ w p, w < nw → (s.ws w).cur = some p → (s.ws w).pc ≠ 0 → ent H n T p ∈ (s.ws w).buf.getD []
  objs : ∀ p ∈ s.objs, p ∈ F ∧ chg H n T p = true
  mem : (∀ p ∈ s.sched, p ∈ F) ∧ (∀ p ∈ s.queue, p ∈ F) ∧ ∀ w p, w < nw → (s.ws w).cur = some p → p ∈ F
  cover : ∀ p ∈ F, chg H n T p = true →
    p ∈ s.sched ∨ p ∈ s.queue ∨ (∃ w, w < nw ∧ (s.ws w).cur = some p ∧ (s.ws w).pc ≠ 2) ∨ p ∈ s.objs
  out : ∀ t, s.out = some t → (∀ e, t.count e ≤ (F.map (ent H n T)).count e)
    ∧ (nr → ∀ e, t.count e = (F.map (ent H n T)).count e) ∧ ∀ p ∈ F, chg H n T p = true → p ∈ s.objs
end

section
variable {H : Bytes → Bytes} {n : Nat} {T : List Entry}

theorem tot_const_zero : ∀ k : Nat, tot k (fun _ => 0) = 0
  | 0 => rfl
  | k + 1 => by simp [tot, tot_const_zero k]

theorem binv_init (nw : Nat) (F : List (Bytes × Bytes)) (nr : Prop) : BInv H n T nw F nr (BigSt.init F) := by
  have hz : ∀ e, meas H n T nw (BigSt.init F) e = (F.map (ent H n T)).count e := by
    intro e
    unfold meas
    have : tot nw (fun w => wm H n T e ((BigSt.init F).ws w) ((BigSt.init F).wfile w)) = 0 := by
      rw [tot_congr nw (g := fun _ => 0) (fun v _ => by simp [BigSt.init, wm]), tot_const_zero]
    rw [this]
    simp [BigSt.init]
  refine ⟨fun e => Nat.le_of_eq (hz e), fun _ => hz, ?_, ?_, ?_, ?_, ?_, ?_, ?_⟩
  · have : tot nw (fun w => busy ((BigSt.init F).ws w)) = 0 := by
      rw [tot_congr nw (g := fun _ => 0) (fun v _ => by simp [BigSt.init, busy]), tot_const_zero]
    rw [this]
    simp [BigSt.init]
  · intro w _ h
    simp [BigSt.init] at h
  · intro w p _ h
    simp [BigSt.init] at h
  · intro p h
    simp [BigSt.init] at h
  · exact ⟨fun p h => h, fun p h => by simp [BigSt.init] at h, fun w p _ h => by simp [BigSt.init] at h⟩
  · exact fun p hp _ => .inl hp
  · intro t h
    simp [BigSt.init] at h

theorem setW_self {f : Nat → Worker} {w : Nat} {x : Worker} : setW f w x w = x := by simp [setW]
theorem setW_ne {f : Nat → Worker} {w v : Nat} {x : Worker} (h : v ≠ w) : setW f w x v = f v := by simp [setW, h]
theorem setF_self {f : Nat → List Entry} {w : Nat} {x : List Entry} : setF f w x w = x := by simp [setF]
theorem setF_ne {f : Nat → List Entry} {w v : Nat} {x : List Entry} (h : v ≠ w) : setF f w x v = f v := by
  simp [setF, h]
theorem setF_id {f : Nat → List Entry} {w : Nat} : setF f w (f w) = f := by
  funext v
  unfold setF
  split
  · rename_i h
    rw [h]
  · rfl

/-- A step of one worker: the new state of the worker, of its file, of the counter, the queue and the objects. -/
theorem binv_worker {nw w : Nat} {F : List (Bytes × Bytes)} {nr : Prop} {s : BigSt} (h : BInv H n T nw F nr s)
    (hw : w < nw) (x : Worker) (l : List Entry) (q : List (Bytes × Bytes)) (c : Int) (o : List (Bytes × Bytes))
    (hle : ∀ e, wm H n T e x l + (q.map (ent H n T)).count e
      ≤ wm H n T e (s.ws w) (s.wfile w) + (s.queue.map (ent H n T)).count e)
    (heq : nr → ∀ e, wm H n T e x l + (q.map (ent H n T)).count e
      = wm H n T e (s.ws w) (s.wfile w) + (s.queue.map (ent H n T)).count e)
    (hnum : c + ((s.queue.length + busy (s.ws w) : Nat) : Int) = s.cnt + ((q.length + busy x : Nat) : Int))
    (hflag : x.buf ≠ none → x.flag = true)
    (hheld : ∀ p, x.cur = some p → x.pc ≠ 0 → ent H n T p ∈ x.buf.getD [])
    (hq : ∀ p ∈ q, p ∈ s.queue) (hx : ∀ p, x.cur = some p → p ∈ F)
    (ho : ∀ p ∈ o, p ∈ s.objs ∨ (p ∈ F ∧ chg H n T p = true)) (ho' : ∀ p ∈ s.objs, p ∈ o)
    (hcov : ∀ p, chg H n T p = true → p ∈ s.queue ∨ ((s.ws w).cur = some p ∧ (s.ws w).pc ≠ 2) →
      p ∈ q ∨ (x.cur = some p ∧ x.pc ≠ 2) ∨ p ∈ o) :
    BInv H n T nw F nr { s with queue := q, cnt := c, objs := o, ws := setW s.ws w x, wfile := setF s.wfile w l } := by
  have htot : ∀ e, tot nw (fun v => wm H n T e (setW s.ws w x v) (setF s.wfile w l v))
      + wm H n T e (s.ws w) (s.wfile w)
      = tot nw (fun v => wm H n T e (s.ws v) (s.wfile v)) + wm H n T e x l := by
    intro e
    have := tot_upd nw (f := fun v => wm H n T e (s.ws v) (s.wfile v))
      (g := fun v => wm H n T e (setW s.ws w x v) (setF s.wfile w l v)) hw
      (fun v hv => by simp only [setW_ne hv, setF_ne hv])
    simp only [setW_self, setF_self] at this
    exact this
  have hbusy := tot_upd nw (f := fun v => busy (s.ws v)) (g := fun v => busy (setW s.ws w x v)) hw
    (fun v hv => by simp only [setW_ne hv])
  simp only [setW_self] at hbusy
  refine ⟨?_, ?_, ?_, ?_, ?_, ?_, ?_, ?_, ?_⟩
  · intro e
    have h1 := h.le e
    have h2 := htot e
    have h3 := hle e
    unfold meas at h1 ⊢
    simp only
    omega
  · intro hn e
    have h1 := h.same hn e
    have h2 := htot e
    have h3 := heq hn e
    unfold meas at h1 ⊢
    simp only
    omega
  · have h1 := h.num
    simp only
    omega
  · intro v hv
    by_cases hvw : v = w
    · subst hvw
      simp only [setW_self]
      exact hflag
    · simp only [setW_ne hvw]
      exact h.flag v hv
  · intro v p hv
    by_cases hvw : v = w
    · subst hvw
      simp only [setW_self]
      exact hheld p
    · simp only [setW_ne hvw]
      exact h.held v p hv
  · intro p hp
    rcases ho p hp with hp | hp
    · exact h.objs p hp
    · exact hp
  · refine ⟨h.mem.1, fun p hp => h.mem.2.1 p (hq p hp), ?_⟩
    intro v p hv
    by_cases hvw : v = w
    · subst hvw
      simp only [setW_self]
      exact hx p
    · simp only [setW_ne hvw]
      exact h.mem.2.2 v p hv
  · intro p hp hc
    simp only
    have key : p ∈ s.queue ∨ ((s.ws w).cur = some p ∧ (s.ws w).pc ≠ 2) →
        p ∈ s.sched ∨ p ∈ q ∨ (∃ v, v < nw ∧ (setW s.ws w x v).cur = some p ∧ (setW s.ws w x v).pc ≠ 2) ∨ p ∈ o := by
      intro hk
      rcases hcov p hc hk with h1 | h1 | h1
      · exact .inr (.inl h1)
      · exact .inr (.inr (.inl ⟨w, hw, by simp only [setW_self]; exact h1⟩))
      · exact .inr (.inr (.inr h1))
    rcases h.cover p hp hc with h1 | h1 | ⟨v, hv, h1⟩ | h1
    · exact .inl h1
    · exact key (.inl h1)
    · by_cases hvw : v = w
      · subst hvw
        exact key (.inr h1)
      · exact .inr (.inr (.inl ⟨v, hv, by simp only [setW_ne hvw]; exact h1⟩))
    · exact .inr (.inr (.inr (ho' p h1)))
  · intro t ht
    obtain ⟨a, b, c⟩ := h.out t ht
    exact ⟨a, b, fun p hp hc => ho' p (c p hp hc)⟩

theorem binv_step {nw : Nat} {F : List (Bytes × Bytes)} {nr : Prop} {s s' : BigSt} {ev : BigEv}
    (h : BInv H n T nw F nr s) (hnr : nr → ∀ w, ev ≠ .restart w) (hs : s.step H nw n T ev = some s') :
    BInv H n T nw F nr s' := by
  cases ev with
  | put =>
    simp only [BigSt.step] at hs
    split at hs
    · rename_i p r e1 e2
      cases hs
      refine ⟨?_, ?_, ?_, h.flag, h.held, h.objs, ?_, ?_, h.out⟩
      · intro e
        have := h.le e
        unfold meas at this ⊢
        rw [e1] at this
        simp only [List.map_cons, List.count_cons, List.map_append, List.count_append, List.map_nil, List.count_nil] at this ⊢
        omega
      · intro hn e
        have := h.same hn e
        unfold meas at this ⊢
        rw [e1] at this
        simp only [List.map_cons, List.count_cons, List.map_append, List.count_append, List.map_nil, List.count_nil] at this ⊢
        omega
      · have := h.num
        rw [e2] at this
        simp only [List.length_append, List.length_cons, List.length_nil]
        omega
      · refine ⟨fun q hq => h.mem.1 q (by rw [e1]; simp [hq]), ?_, h.mem.2.2⟩
        intro q hq
        rcases List.mem_append.1 hq with hq | hq
        · exact h.mem.2.1 q hq
        · rw [List.mem_singleton.1 hq]
          exact h.mem.1 p (by rw [e1]; simp)
      · intro q hq hc
        rcases h.cover q hq hc with h1 | h1 | h1 | h1
        · rw [e1] at h1
          rcases List.mem_cons.1 h1 with rfl | h1
          · exact .inr (.inl (by simp))
          · exact .inl h1
        · exact .inr (.inl (List.mem_append.2 (.inl h1)))
        · exact .inr (.inr (.inl h1))
        · exact .inr (.inr (.inr h1))
    · cases hs
  | inc =>
    simp only [BigSt.step] at hs
    split at hs
    · rename_i e2
      cases hs
      refine ⟨h.le, h.same, ?_, h.flag, h.held, h.objs, h.mem, h.cover, h.out⟩
      have := h.num
      rw [e2] at this
      simp only
      omega
    · cases hs
  | pick w =>
    simp only [BigSt.step] at hs
    split at hs
    · rename_i hw
      split at hs
      · rename_i p q e1 e2
        cases hs
        have key := binv_worker h hw { s.ws w with cur := some p, pc := 0 } (s.wfile w) q s.cnt s.objs
          (fun e => by
            rw [e2]
            simp only [wm, e1, List.map_cons, List.count_cons, beq_iff_eq, true_and]
            omega)
          (fun _ e => by
            rw [e2]
            simp only [wm, e1, List.map_cons, List.count_cons, beq_iff_eq, true_and]
            omega)
          (by
            rw [e2]
            simp only [busy, e1, List.length_cons, Option.isSome_none, Option.isSome_some, if_true]
            simp only [Bool.false_eq_true, if_false])
          (h.flag w hw) (fun _ _ hp => absurd rfl hp) (fun x hx => by rw [e2]; simp [hx])
          (fun x hx => by
            cases hx
            exact h.mem.2.1 p (by rw [e2]; simp))
          (fun x hx => .inl hx) (fun _ hx => hx)
          (fun x _ hx => by
            rcases hx with hx | hx
            · rw [e2] at hx
              rcases List.mem_cons.1 hx with rfl | hx
              · exact .inr (.inl ⟨rfl, by simp⟩)
              · exact .inl hx
            · rw [e1] at hx
              cases hx.1)
        rw [setF_id] at key
        exact key
      · cases hs
    · cases hs
  | record w =>
    simp only [BigSt.step] at hs
    split at hs
    · rename_i hw
      split at hs
      · rename_i p e1
        split at hs
        · rename_i e2
          have hpF := h.mem.2.2 w p hw e1
          split at hs
          · cases hs
            exact binv_worker h hw ⟨true, some p, 1, some [ent H n T p]⟩ (s.wfile w ++ (s.ws w).buf.getD []) s.queue s.cnt
              s.objs
              (fun e => by
                simp only [wm, e1, e2, List.count_append, Option.getD_some, List.count_cons, List.count_nil, beq_iff_eq,
                  true_and]
                simp
                omega)
              (fun _ e => by
                simp only [wm, e1, e2, List.count_append, Option.getD_some, List.count_cons, List.count_nil, beq_iff_eq,
                  true_and]
                simp
                omega)
              (by simp only [busy, e1])
              (fun _ => rfl)
              (fun x hx _ => by
                cases hx
                simp)
              (fun _ hx => hx)
              (fun x hx => by
                cases hx
                exact hpF)
              (fun x hx => .inl hx) (fun _ hx => hx)
              (fun x _ hx => by
                rcases hx with hx | hx
                · exact .inl hx
                · rw [e1] at hx
                  exact .inr (.inl ⟨hx.1, by simp⟩))
          · cases hs
            have key := binv_worker h hw ⟨true, some p, 1, some ((s.ws w).buf.getD [] ++ [ent H n T p])⟩ (s.wfile w) s.queue
              s.cnt s.objs
              (fun e => by
                simp only [wm, e1, e2, List.count_append, Option.getD_some, List.count_cons, List.count_nil, beq_iff_eq,
                  true_and]
                simp
                omega)
              (fun _ e => by
                simp only [wm, e1, e2, List.count_append, Option.getD_some, List.count_cons, List.count_nil, beq_iff_eq,
                  true_and]
                simp
                omega)
              (by simp only [busy, e1])
              (fun _ => rfl)
              (fun x hx _ => by
                cases hx
                simp)
              (fun _ hx => hx)
              (fun x hx => by
                cases hx
                exact hpF)
              (fun x hx => .inl hx) (fun _ hx => hx)
              (fun x _ hx => by
                rcases hx with hx | hx
                · exact .inl hx
                · rw [e1] at hx
                  exact .inr (.inl ⟨hx.1, by simp⟩))
            rw [setF_id] at key
            exact key
        · cases hs
      · cases hs
    · cases hs
  | upload w =>
    simp only [BigSt.step] at hs
    split at hs
    · rename_i hw
      split at hs
      · rename_i p e1
        split at hs
        · rename_i e2
          have hpF := h.mem.2.2 w p hw e1
          cases hs
          have hch : (entryOf H n T p.1 p.2).2 = chg H n T p := rfl
          rw [hch]
          have key := binv_worker h hw { s.ws w with pc := 2 } (s.wfile w) s.queue s.cnt
            (if chg H n T p = true then s.objs ++ [p] else s.objs)
            (fun e => by simp only [wm, e1, e2]; simp)
            (fun _ e => by simp only [wm, e1, e2]; simp)
            (by simp only [busy])
            (h.flag w hw)
            (fun x hx _ => h.held w x hw hx (by omega))
            (fun _ hx => hx)
            (fun x hx => h.mem.2.2 w x hw hx)
            (fun x hx => by
              split at hx
              · rename_i hc
                rcases List.mem_append.1 hx with hx | hx
                · exact .inl hx
                · rw [List.mem_singleton.1 hx]
                  exact .inr ⟨hpF, hc⟩
              · exact .inl hx)
            (fun x hx => by
              split
              · exact List.mem_append.2 (.inl hx)
              · exact hx)
            (fun x hc hx => by
              rcases hx with hx | hx
              · exact .inl hx
              · rw [e1] at hx
                obtain ⟨hx, _⟩ := hx
                cases hx
                rw [if_pos hc]
                exact .inr (.inr (by simp)))
          rw [setF_id] at key
          exact key
        · cases hs
      · cases hs
    · cases hs
  | done w =>
    simp only [BigSt.step] at hs
    split at hs
    · rename_i hw
      split at hs
      · rename_i p e1
        split at hs
        · rename_i e2
          cases hs
          have key := binv_worker h hw { s.ws w with cur := none, pc := 0 } (s.wfile w) s.queue (s.cnt - 1) s.objs
            (fun e => by simp only [wm, e1, e2]; simp)
            (fun _ e => by simp only [wm, e1, e2]; simp)
            (by
              simp only [busy, e1, Option.isSome_none, Option.isSome_some, if_true]
              simp only [Bool.false_eq_true, if_false]
              omega)
            (h.flag w hw)
            (fun x hx _ => by cases hx)
            (fun _ hx => hx)
            (fun x hx => by cases hx)
            (fun x hx => .inl hx) (fun _ hx => hx)
            (fun x hc hx => by
              rcases hx with hx | hx
              · exact .inl hx
              · exact absurd e2 hx.2)
          rw [setF_id] at key
          exact key
        · cases hs
      · cases hs
    · cases hs
  | idle w =>
    simp only [BigSt.step] at hs
    split at hs
    · rename_i hw
      split at hs
      · rename_i e1
        split at hs
        · cases hs
          exact binv_worker h hw { s.ws w with flag := false, buf := none } (s.wfile w ++ (s.ws w).buf.getD []) s.queue
            s.cnt s.objs
            (fun e => by simp only [wm, e1, List.count_append, Option.getD_none, List.count_nil]; omega)
            (fun _ e => by simp only [wm, e1, List.count_append, Option.getD_none, List.count_nil]; omega)
            (by simp only [busy])
            (fun hx => absurd rfl hx)
            (fun x hx _ => by rw [e1] at hx; cases hx)
            (fun _ hx => hx)
            (fun x hx => by rw [e1] at hx; cases hx)
            (fun x hx => .inl hx) (fun _ hx => hx)
            (fun x hc hx => by
              rcases hx with hx | hx
              · exact .inl hx
              · exact .inr (.inl hx))
        · cases hs
      · cases hs
    · cases hs
  | restart w =>
    simp only [BigSt.step] at hs
    split at hs
    · rename_i hw
      cases hs
      have hno : ¬nr := fun hn => hnr hn w rfl
      have key := binv_worker h hw { s.ws w with pc := 0, buf := none } (s.wfile w) s.queue s.cnt s.objs
        (fun e => by
          simp only [wm, Option.getD_none, List.count_nil]
          cases hc : (s.ws w).cur with
          | none => simp
          | some p =>
            simp only [true_and]
            by_cases hp : (s.ws w).pc = 0
            · simp only [hp, true_and]
              omega
            · have hm := h.held w p hw hc hp
              by_cases he : ent H n T p = e
              · subst he
                have := List.count_pos_iff.2 hm
                simp only [if_true]
                omega
              · simp only [if_neg he]
                omega)
        (fun hn => absurd hn hno)
        (by simp only [busy])
        (fun hx => absurd rfl hx)
        (fun x _ hx => absurd rfl hx)
        (fun _ hx => hx)
        (fun x hx => h.mem.2.2 w x hw hx)
        (fun x hx => .inl hx) (fun _ hx => hx)
        (fun x hc hx => by
          rcases hx with hx | hx
          · exact .inl hx
          · exact .inr (.inl ⟨hx.1, by simp⟩))
      rw [setF_id] at key
      exact key
    · cases hs
  | finish =>
    simp only [BigSt.step] at hs
    split at hs
    · rename_i hg
      obtain ⟨g1, g2, g3, g4, g5⟩ := hg
      cases hs
      have hnum := h.num
      rw [g2, g3] at hnum
      have hq : s.queue = [] := by
        have : s.queue.length = 0 := by omega
        exact List.length_eq_zero_iff.1 this
      have hb := tot_zero nw (f := fun w => busy (s.ws w)) (by omega)
      have hcur : ∀ w, w < nw → (s.ws w).cur = none := by
        intro w hw
        have := hb w hw
        unfold busy at this
        split at this
        · omega
        · rename_i hx
          simpa using hx
      have hbuf : ∀ w, w < nw → (s.ws w).buf = none := by
        intro w hw
        have hf := List.all_eq_true.1 g4 w (List.mem_range.2 hw)
        cases hbb : (s.ws w).buf with
        | none => rfl
        | some l =>
          have := h.flag w hw (by rw [hbb]; simp)
          rw [this] at hf
          cases hf
      have hm : ∀ e, meas H n T nw s e = ((List.range nw).flatMap s.wfile).count e := by
        intro e
        rw [count_flatMap]
        unfold meas
        rw [g1, hq]
        simp only [List.map_nil, List.count_nil, Nat.zero_add]
        refine tot_congr nw fun v hv => ?_
        simp [wm, hcur v hv, hbuf v hv]
      refine ⟨h.le, h.same, h.num, h.flag, h.held, h.objs, h.mem, h.cover, ?_⟩
      intro t ht
      cases ht
      refine ⟨fun e => by rw [← hm]; exact h.le e, fun hn e => by rw [← hm]; exact h.same hn e, ?_⟩
      intro p hp hc
      rcases h.cover p hp hc with h1 | h1 | ⟨w, hw, h1⟩ | h1
      · rw [g1] at h1
        cases h1
      · rw [hq] at h1
        cases h1
      · rw [hcur w hw] at h1
        cases h1.1
      · exact h1
    · cases hs

theorem binv_run {nw : Nat} {F : List (Bytes × Bytes)} {nr : Prop} : ∀ (es : List BigEv) {s s' : BigSt},
    BInv H n T nw F nr s → (nr → ∀ w, BigEv.restart w ∉ es) → s.run H nw n T es = some s' → BInv H n T nw F nr s'
  | [], s, s', h, _, hs => by
    simp only [BigSt.run, Option.some.injEq] at hs
    rw [← hs]
    exact h
  | ev :: es, s, s', h, hnr, hs => by
    simp only [BigSt.run] at hs
    split at hs
    · cases hs
    · rename_i s1 e1
      have h1 := binv_step h (fun hn w he => hnr hn w (by rw [he]; simp)) e1
      exact binv_run es h1 (fun hn w hm => hnr hn w (by simp [hm])) hs
end

end Verif.S3Backup
