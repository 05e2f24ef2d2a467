import Verif.S3Lock.Model

/-! The invariant of runs in which every instance keeps its own lock. -/

namespace Verif.S3Lock

/-- The control file `a` is that of the bucket, `b`, or a later one of the same instance. -/
def Ge (a b : Option Ctl) : Prop :=
  ∀ y, b = some y → ∃ x, a = some x ∧ x.ident = y.ident ∧ y.num ≤ x.num ∧ y.lsn ≤ x.lsn

theorem Ge.refl (a : Option Ctl) : Ge a a := fun y h => ⟨y, h, rfl, Nat.le_refl _, Nat.le_refl _⟩

theorem checkControl_iff (a b : Option Ctl) : checkControl a b = true ↔ Ge a b := by
  unfold checkControl Ge
  cases b with
  | none => simp
  | some y =>
    cases a with
    | none => simp
    | some x =>
      by_cases h1 : x.ident = y.ident
      · by_cases h2 : x.num < y.num
        · simp [h1, h2]; omega
        · by_cases h3 : x.lsn < y.lsn
          · simp [h1, h2, h3]
          · simp [h1, h2, h3]; omega
      · simp [h1]

/-- The instance is past `s3_put_lock_file` and has not given the lock back. -/
def Inst.Holds (x : Inst) : Prop := x.pc = .locked ∨ x.pc = .refused ∨ x.pc = .running

/-- Actions that leave every instance its own lock: no restart after the crash of a backend,
no copy of a lock file, no identifier that another instance has or that is 0. -/
def Fair (w : World) : Act → Prop
  | .restart _ => False
  | .copy _ _ withLock => withLock = false
  | .write _ n => n ≠ 0 ∧ ∀ j, (w.insts j).file ≠ .id n
  | _ => True

/-- All actions of a run are `Fair`. -/
def FairRun : World → List Act → Prop
  | _, [] => True
  | w, a :: as => Fair w a ∧ FairRun (step w a) as

structure Inv (w : World) : Prop where
  ids : ∀ i j n, (w.insts i).file = .id n → (w.insts j).file = .id n → i = j
  has : ∀ i, (w.insts i).pc ≠ .off → (w.insts i).pc ≠ .creating → ∃ n, n ≠ 0 ∧ (w.insts i).file = .id n
  own : ∀ i, (w.insts i).Holds → w.lock = some (w.insts i).file.ident
  ge : ∀ i, (w.insts i).pc = .running → Ge (w.insts i).ctl w.ctl

theorem Inst.Holds.on {x : Inst} (h : x.Holds) : x.pc ≠ .off ∧ x.pc ≠ .creating := by
  rcases h with h | h | h <;> rw [h] <;> decide

theorem Inv.one {w : World} (h : Inv w) {i j : Nat} (hi : (w.insts i).Holds) (hj : (w.insts j).Holds) : i = j := by
  obtain ⟨n, _, hn⟩ := h.has i hi.on.1 hi.on.2
  obtain ⟨m, _, hm⟩ := h.has j hj.on.1 hj.on.2
  have e := (h.own i hi).symm.trans (h.own j hj)
  rw [hn, hm] at e
  injection e with e
  change n = m at e
  subst e
  exact h.ids i j n hn hm

theorem set_same (w : World) (i : Nat) (x : Inst) : (w.set i x).insts i = x := if_pos rfl

theorem set_other (w : World) {i j : Nat} (x : Inst) (h : j ≠ i) : (w.set i x).insts j = w.insts j := if_neg h

/-- One instance changes, and the objects of the bucket. -/
theorem inv_upd {w : World} (h : Inv w) (i : Nat) (x : Inst) (l : Option Nat) (c : Option Ctl)
    (hf : ∀ n, x.file = .id n → ∀ j, j ≠ i → (w.insts j).file ≠ .id n)
    (hh : x.pc ≠ .off → x.pc ≠ .creating → ∃ n, n ≠ 0 ∧ x.file = .id n)
    (ho : x.Holds → l = some x.file.ident)
    (hg : x.pc = .running → Ge x.ctl c)
    (hl : ∀ j, j ≠ i → (w.insts j).Holds → l = w.lock ∧ c = w.ctl) :
    Inv { insts := (w.set i x).insts, lock := l, ctl := c } := by
  constructor
  · intro a b n ha hb
    change ((w.set i x).insts a).file = _ at ha
    change ((w.set i x).insts b).file = _ at hb
    by_cases ea : a = i
    · by_cases eb : b = i
      · rw [ea, eb]
      · rw [ea, set_same] at ha
        rw [set_other w x eb] at hb
        exact absurd hb (hf n ha b eb)
    · rw [set_other w x ea] at ha
      by_cases eb : b = i
      · rw [eb, set_same] at hb
        exact absurd ha (hf n hb a ea)
      · rw [set_other w x eb] at hb
        exact h.ids a b n ha hb
  · intro a
    show ((w.set i x).insts a).pc ≠ _ → ((w.set i x).insts a).pc ≠ _ → ∃ n, n ≠ 0 ∧ ((w.set i x).insts a).file = _
    by_cases ea : a = i
    · rw [ea, set_same]; exact hh
    · rw [set_other w x ea]; exact h.has a
  · intro a
    show ((w.set i x).insts a).Holds → l = some ((w.set i x).insts a).file.ident
    by_cases ea : a = i
    · rw [ea, set_same]; exact ho
    · rw [set_other w x ea]
      intro ha
      rw [(hl a ea ha).1]
      exact h.own a ha
  · intro a
    show ((w.set i x).insts a).pc = _ → Ge ((w.set i x).insts a).ctl c
    by_cases ea : a = i
    · rw [ea, set_same]; exact hg
    · rw [set_other w x ea]
      intro ha
      rw [(hl a ea (Or.inr (Or.inr ha))).2]
      exact h.ge a ha

/-- One instance changes its place only. -/
theorem inv_pc {w : World} (h : Inv w) (i : Nat) (p : Pc) (l : Option Nat)
    (hh : p ≠ .off → p ≠ .creating → ∃ n, n ≠ 0 ∧ (w.insts i).file = .id n)
    (ho : (p = .locked ∨ p = .refused ∨ p = .running) → l = some (w.insts i).file.ident)
    (hg : p = .running → Ge (w.insts i).ctl w.ctl)
    (hl : ∀ j, j ≠ i → (w.insts j).Holds → l = w.lock) :
    Inv { insts := (w.set i { w.insts i with pc := p }).insts, lock := l, ctl := w.ctl } :=
  inv_upd h i { w.insts i with pc := p } l w.ctl (fun n hn j hj hjn => hj (h.ids j i n hjn hn)) hh ho hg
    (fun j hj hjh => ⟨hl j hj hjh, rfl⟩)

theorem ge_next (c b : Option Ctl) (ident lsn : Nat) (h : Ge c b) : Ge (some (nextCtl c ident lsn)) b := by
  intro y hy
  obtain ⟨x, hx, h1, h2, h3⟩ := h y hy
  refine ⟨_, rfl, ?_⟩
  rw [hx]
  refine ⟨h1, ?_, ?_⟩
  · show y.num ≤ x.num + 1; omega
  · show y.lsn ≤ max x.lsn lsn; omega

theorem inv_step {w : World} (h : Inv w) (a : Act) (hf : Fair w a) : Inv (step w a) := by
  cases a with
  | start i =>
    unfold step
    by_cases hp : (w.insts i).pc = .off
    · simp only [if_pos hp]
      cases hfile : (w.insts i).file with
      | absent =>
        refine inv_upd h i _ w.lock w.ctl ?_ ?_ ?_ ?_ (fun _ _ _ => ⟨rfl, rfl⟩)
        · intro n hn; cases hn
        · intro _ h2; exact absurd rfl h2
        · rintro (h1 | h1 | h1) <;> cases h1
        · intro h1; cases h1
      | empty => exact h
      | id n =>
        by_cases hn : n = 0
        · simp only [if_pos hn]; exact h
        · simp only [if_neg hn]
          refine inv_upd h i _ w.lock w.ctl ?_ ?_ ?_ ?_ (fun _ _ _ => ⟨rfl, rfl⟩)
          · intro m hm j hj hjm
            exact hj (h.ids j i m hjm (by rw [hfile]; exact hm))
          · intro _ _; exact ⟨n, hn, rfl⟩
          · rintro (h1 | h1 | h1) <;> cases h1
          · intro h1; cases h1
    · simp only [if_neg hp]; exact h
  | write i n =>
    unfold step
    by_cases hp : (w.insts i).pc = .creating
    · simp only [if_pos hp]
      refine inv_upd h i _ w.lock w.ctl ?_ ?_ ?_ ?_ (fun _ _ _ => ⟨rfl, rfl⟩)
      · intro m hm j _
        injection hm with hm
        subst hm
        exact hf.2 j
      · intro _ _; exact ⟨n, hf.1, rfl⟩
      · rintro (h1 | h1 | h1) <;> cases h1
      · intro h1; cases h1
    · simp only [if_neg hp]; exact h
  | put i conflict =>
    unfold step
    by_cases hp : (w.insts i).pc = .putting
    · simp only [if_pos hp]
      have hh := h.has i (by rw [hp]; decide) (by rw [hp]; decide)
      cases conflict with
      | true => exact h
      | false =>
        cases hl : w.lock with
        | none =>
          refine inv_pc h i .locked _ (fun _ _ => hh) (fun _ => rfl) (fun h1 => by cases h1) ?_
          intro j _ hj
          rw [h.own j hj] at hl
          cases hl
        | some m =>
          have := inv_pc h i .told w.lock (fun _ _ => hh) (by rintro (h1 | h1 | h1) <;> cases h1)
            (fun h1 => by cases h1) (fun _ _ _ => rfl)
          exact this
    · simp only [if_neg hp]; exact h
  | get i =>
    unfold step
    by_cases hp : (w.insts i).pc = .told
    · simp only [if_pos hp]
      have hh := h.has i (by rw [hp]; decide) (by rw [hp]; decide)
      have hoff := inv_pc h i .off w.lock (fun h1 => absurd rfl h1) (by rintro (h1 | h1 | h1) <;> cases h1)
        (fun h1 => by cases h1) (fun _ _ _ => rfl)
      cases hl : w.lock with
      | none => exact hoff
      | some m =>
        by_cases hm : (w.insts i).file.ident ≠ m
        · simp only [if_pos hm]; exact hoff
        · simp only [if_neg hm]
          refine inv_pc h i .locked w.lock (fun _ _ => hh) (fun _ => ?_) (fun h1 => by cases h1) (fun _ _ _ => rfl)
          rw [hl, Decidable.not_not.1 hm]
    · simp only [if_neg hp]; exact h
  | check i =>
    unfold step
    by_cases hp : (w.insts i).pc = .locked
    · simp only [if_pos hp]
      have hh := h.has i (by rw [hp]; decide) (by rw [hp]; decide)
      have ho := h.own i (Or.inl hp)
      by_cases hc : checkControl (w.insts i).ctl w.ctl = true
      · simp only [if_pos hc]
        exact inv_pc h i .running w.lock (fun _ _ => hh) (fun _ => ho) (fun _ => (checkControl_iff _ _).1 hc)
          (fun _ _ _ => rfl)
      · simp only [if_neg hc]
        exact inv_pc h i .refused w.lock (fun _ _ => hh) (fun _ => ho) (fun h1 => by cases h1) (fun _ _ _ => rfl)
    · simp only [if_neg hp]; exact h
  | delete i =>
    unfold step
    by_cases hp : (w.insts i).pc = .refused
    · simp only [if_pos hp]
      refine inv_pc h i .off none (fun h1 => absurd rfl h1) (by rintro (h1 | h1 | h1) <;> cases h1)
        (fun h1 => by cases h1) (fun j hj hjh => absurd (h.one hjh (Or.inr (Or.inl hp))) hj)
    · simp only [if_neg hp]; exact h
  | stop i =>
    unfold step
    by_cases hp : (w.insts i).pc = .running
    · simp only [if_pos hp]
      refine inv_pc h i .off none (fun h1 => absurd rfl h1) (by rintro (h1 | h1 | h1) <;> cases h1)
        (fun h1 => by cases h1) (fun j hj hjh => absurd (h.one hjh (Or.inr (Or.inr hp))) hj)
    · simp only [if_neg hp]; exact h
  | restart i => exact hf.elim
  | kill i =>
    exact inv_pc h i .off w.lock (fun h1 => absurd rfl h1) (by rintro (h1 | h1 | h1) <;> cases h1)
      (fun h1 => by cases h1) (fun _ _ _ => rfl)
  | checkpoint i ident lsn =>
    unfold step
    by_cases hp : (w.insts i).pc = .running
    · simp only [if_pos hp]
      refine inv_upd h i _ w.lock w.ctl ?_ (h.has i) (h.own i) ?_ (fun _ _ _ => ⟨rfl, rfl⟩)
      · intro m hm j hj hjm
        exact hj (h.ids j i m hjm hm)
      · intro _
        exact ge_next _ _ _ _ (h.ge i hp)
    · simp only [if_neg hp]; exact h
  | upload i =>
    unfold step
    by_cases hp : (w.insts i).pc = .running
    · simp only [if_pos hp]
      refine ⟨h.ids, h.has, h.own, ?_⟩
      intro j hj
      have := h.one (Or.inr (Or.inr hj)) (Or.inr (Or.inr hp))
      subst this
      exact Ge.refl _
    · simp only [if_neg hp]; exact h
  | copy i j withLock =>
    have hw : withLock = false := hf
    subst hw
    unfold step
    by_cases hp : (w.insts j).pc = .off
    · simp only [if_pos hp]
      refine inv_upd h j _ w.lock w.ctl ?_ ?_ ?_ ?_ (fun _ _ _ => ⟨rfl, rfl⟩)
      · intro n hn; cases hn
      · intro h1; exact absurd rfl h1
      · rintro (h1 | h1 | h1) <;> cases h1
      · intro h1; cases h1
    · simp only [if_neg hp]; exact h

theorem inv_init : Inv World.init := by
  refine ⟨?_, ?_, ?_, ?_⟩
  · intro i j n h; cases h
  · intro i h; exact absurd rfl h
  · rintro i (h | h | h) <;> cases h
  · intro i h; cases h

theorem inv_run : ∀ (as : List Act) (w : World), Inv w → FairRun w as → Inv (run w as)
  | [], _, h, _ => h
  | a :: as, w, h, hf => inv_run as (step w a) (inv_step h a hf.1) hf.2

/-- Only `upload` changes the control file of the bucket. -/
theorem step_ctl_eq (w : World) (a : Act) (ha : ∀ i, a ≠ .upload i) : (step w a).ctl = w.ctl := by
  cases a <;> first
    | exact absurd rfl (ha _)
    | rfl
    | (unfold step; simp only; repeat' split) <;> rfl

/-- The control file of the bucket does not go back in a step. -/
theorem step_ctl {w : World} (h : Inv w) (a : Act) : Ge (step w a).ctl w.ctl := by
  by_cases ha : ∃ i, a = .upload i
  · obtain ⟨i, rfl⟩ := ha
    unfold step
    by_cases hp : (w.insts i).pc = .running
    · simp only [if_pos hp]; exact h.ge i hp
    · simp only [if_neg hp]; exact Ge.refl _
  · rw [step_ctl_eq w a (fun i hi => ha ⟨i, hi⟩)]
    exact Ge.refl _

/-- The instance an action belongs to. -/
def Act.target : Act → Nat
  | .start i => i
  | .write i _ => i
  | .put i _ => i
  | .get i => i
  | .check i => i
  | .delete i => i
  | .stop i => i
  | .restart i => i
  | .kill i => i
  | .checkpoint i _ _ => i
  | .upload i => i
  | .copy _ j _ => j

/-- An action changes no other instance. -/
theorem step_other (w : World) (a : Act) (i : Nat) (h : i ≠ a.target) : (step w a).insts i = w.insts i := by
  cases a <;> (
    simp only [Act.target] at h
    unfold step
    simp only
    repeat' split) <;> first | rfl | exact if_neg h

/-- An instance that does not hold the lock changes nothing in the bucket, as long as there
is a lock. -/
theorem step_bucket (w : World) (a : Act) (m : Nat) (hl : w.lock = some m) (h : ¬ (w.insts a.target).Holds) :
    (step w a).lock = w.lock ∧ (step w a).ctl = w.ctl := by
  have h1 : (w.insts a.target).pc ≠ .refused := fun e => h (Or.inr (Or.inl e))
  have h2 : (w.insts a.target).pc ≠ .running := fun e => h (Or.inr (Or.inr e))
  cases a with
  | put i conflict =>
    unfold step
    simp only [hl]
    repeat' split
    all_goals exact ⟨hl, rfl⟩
  | delete i => unfold step; simp only [Act.target] at h1; simp only [if_neg h1, and_self]
  | stop i => unfold step; simp only [Act.target] at h2; simp only [if_neg h2, and_self]
  | restart i => unfold step; simp only [Act.target] at h2; simp only [if_neg h2, and_self]
  | upload i => unfold step; simp only [Act.target] at h2; simp only [if_neg h2, and_self]
  | _ =>
    unfold step
    simp only
    repeat' split
    all_goals exact ⟨rfl, rfl⟩

/-- A stopped instance whose lock is in the bucket, and which may go on with the bucket. -/
structure Waits (i n : Nat) (w : World) : Prop where
  inv : Inv w
  off : (w.insts i).pc = .off
  file : (w.insts i).file = .id n
  lock : w.lock = some n
  ge : Ge (w.insts i).ctl w.ctl

theorem waits_step {i n : Nat} {w : World} (h : Waits i n w) (a : Act) (hf : Fair w a) (ht : i ≠ a.target) :
    Waits i n (step w a) := by
  have hn : ¬ (w.insts a.target).Holds := by
    intro hh
    obtain ⟨m, _, hm⟩ := h.inv.has _ hh.on.1 hh.on.2
    have e := (h.inv.own _ hh).symm.trans h.lock
    rw [hm] at e
    injection e with e
    change m = n at e
    subst e
    exact ht (h.inv.ids i _ m h.file hm)
  obtain ⟨b1, b2⟩ := step_bucket w a n h.lock hn
  have e := step_other w a i ht
  exact ⟨inv_step h.inv a hf, by rw [e]; exact h.off, by rw [e]; exact h.file, by rw [b1]; exact h.lock,
    by rw [e, b2]; exact h.ge⟩

theorem waits_run {i n : Nat} : ∀ (as : List Act) (w : World), Waits i n w → FairRun w as →
    (∀ a ∈ as, i ≠ a.target) → Waits i n (run w as)
  | [], _, h, _, _ => h
  | a :: as, w, h, hf, ht => waits_run as (step w a) (waits_step h a hf.1 (ht a List.mem_cons_self)) hf.2
      (fun b hb => ht b (List.mem_cons_of_mem _ hb))

end Verif.S3Lock
