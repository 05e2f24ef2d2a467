import Verif.S3Lock.Proofs

/-!
Properties C125–C128: the lock file and the control file of an S3 bucket.
-/

namespace Verif.S3Lock

/-- A first instance starts, makes a checkpoint and puts its control file to the bucket. -/
def first : List Act :=
  [.start 0, .write 0 101, .put 0 false, .check 0, .checkpoint 0 7 50, .upload 0]

/-! ## C125 -/

/-- C125, part.  At any time at most one instance runs with the bucket, if no backend crashes
and no lock file is copied.  Missing: just these, see `C125_violated_restart` and
`C125_violated_copy`. -/
theorem C125_partial (as : List Act) (hf : FairRun World.init as) (i j : Nat)
    (hi : ((run World.init as).insts i).pc = .running) (hj : ((run World.init as).insts j).pc = .running) : i = j :=
  (inv_run as _ inv_init hf).one (Or.inr (Or.inr hi)) (Or.inr (Or.inr hj))

/-- The first instance is killed; another one, a copy without the lock file, tries in vain to
start; the first one starts again with the lock it left, goes on, and stops; then the
other one starts. -/
def takeover : List Act :=
  first ++ [.kill 0, .copy 0 1 false, .start 1, .write 1 102, .put 1 true, .put 1 false, .get 1,
    .start 0, .put 0 false, .get 0, .check 0, .stop 0, .start 1, .put 1 false, .check 1]

theorem C125_partial_case : FairRun World.init takeover ∧
    ((run World.init (takeover.take 13)).insts 1).pc = .off ∧
    ((run World.init (takeover.take 17)).insts 0).pc = .running ∧
    ((run World.init takeover).insts 1).pc = .running ∧ ((run World.init takeover).insts 0).pc = .off := by
  refine ⟨?_, by decide +kernel, by decide +kernel, by decide +kernel, by decide +kernel⟩
  refine ⟨trivial, ⟨by decide, ?_⟩, trivial, trivial, trivial, trivial, trivial, rfl, trivial,
    ⟨by decide, ?_⟩, trivial, trivial, trivial, trivial, trivial, trivial, trivial, trivial, trivial, trivial, trivial,
    trivial⟩
  · intro j h
    match j with
    | 0 => exact absurd h (by decide +kernel)
    | j + 1 => cases h
  intro j h
  match j with
  | 0 => exact absurd h (by decide +kernel)
  | 1 => exact absurd h (by decide +kernel)
  | j + 2 => cases h

/-- C125 fails.  A backend of the first instance crashes; the postmaster deletes the lock and
goes on without a new one.  A copy of the first instance, without the lock file, starts:
both run. -/
theorem C125_violated_restart :
    let w := run World.init (first ++ [.restart 0, .copy 0 1 false, .start 1, .write 1 102, .put 1 false, .check 1])
    (w.insts 0).pc = .running ∧ (w.insts 1).pc = .running := by
  refine ⟨?_, ?_⟩ <;> decide +kernel

/-- C125 fails.  A copy of the first instance that holds its lock file starts: both run. -/
theorem C125_violated_copy :
    let w := run World.init (first ++ [.copy 0 1 true, .start 1, .put 1 false, .get 1, .check 1])
    (w.insts 0).pc = .running ∧ (w.insts 1).pc = .running := by
  refine ⟨?_, ?_⟩ <;> decide +kernel

/-! ## C126 -/

/-- C126, part.  An instance runs only if the bucket has no control file or one that its own
control file descends from; and the control file of the bucket is only replaced by one
that descends from it: same identifier, no lower checkpoint number, no lower position.
Missing: runs with a crash of a backend or a copied lock file, see `C126_violated`. -/
theorem C126_partial (as : List Act) (hf : FairRun World.init as) :
    (∀ i, ((run World.init as).insts i).pc = .running →
      Ge ((run World.init as).insts i).ctl (run World.init as).ctl) ∧
    (∀ a, Ge (run World.init (as ++ [a])).ctl (run World.init as).ctl) := by
  have h := inv_run as _ inv_init hf
  refine ⟨h.ge, fun a => ?_⟩
  unfold run
  rw [List.foldl_append]
  exact step_ctl h a

/-- The decision itself: the bucket is empty, or it holds an ancestor of the local control
file. -/
theorem C126_check_partial (mine bucket : Option Ctl) : checkControl mine bucket = true ↔ Ge mine bucket :=
  checkControl_iff mine bucket

theorem C126_partial_case :
    (run World.init takeover).ctl = some ⟨7, 1, 50⟩ ∧
    (run World.init (takeover ++ [.checkpoint 1 0 60, .upload 1])).ctl = some ⟨7, 2, 60⟩ ∧
    checkControl (some ⟨7, 1, 50⟩) (some ⟨7, 2, 60⟩) = false ∧
    checkControl (some ⟨8, 3, 70⟩) (some ⟨7, 2, 60⟩) = false ∧
    checkControl (some ⟨7, 2, 55⟩) (some ⟨7, 2, 60⟩) = false ∧
    checkControl (some ⟨7, 3, 70⟩) (some ⟨7, 2, 60⟩) = true := by
  refine ⟨?_, ?_, ?_, ?_, ?_, ?_⟩ <;> decide +kernel

/-- C126 fails: both instances of `C125_violated_copy` make checkpoints; the bucket goes from
checkpoint 3 of the one back to checkpoint 2 of the other. -/
theorem C126_violated :
    let as := first ++ [.copy 0 1 true, .start 1, .put 1 false, .get 1, .check 1,
      .checkpoint 0 0 60, .checkpoint 0 0 70, .checkpoint 1 0 61, .upload 0]
    (run World.init as).ctl = some ⟨7, 3, 70⟩ ∧ (run World.init (as ++ [.upload 1])).ctl = some ⟨7, 2, 61⟩ ∧
    ¬ Ge (run World.init (as ++ [.upload 1])).ctl (run World.init as).ctl := by
  refine ⟨by decide +kernel, by decide +kernel, ?_⟩
  intro h
  obtain ⟨x, hx, _, h2, _⟩ := h ⟨7, 3, 70⟩ (by decide +kernel)
  have e : x = ⟨7, 2, 61⟩ := by
    have : (run World.init (first ++ [.copy 0 1 true, .start 1, .put 1 false, .get 1, .check 1,
      .checkpoint 0 0 60, .checkpoint 0 0 70, .checkpoint 1 0 61, .upload 0] ++ [.upload 1])).ctl =
        some ⟨7, 2, 61⟩ := by decide +kernel
    rw [this] at hx
    injection hx with hx
    exact hx.symm
  subst e
  exact absurd h2 (by decide)

/-! ## C127 -/

/-- C127, part.  While an instance runs, the bucket holds a lock with its identifier, which no
other instance has.  Missing: as in C125, see `C127_violated`. -/
theorem C127_partial (as : List Act) (hf : FairRun World.init as) (i : Nat)
    (hi : ((run World.init as).insts i).pc = .running) :
    ∃ n, ((run World.init as).insts i).file = .id n ∧ (run World.init as).lock = some n ∧
      ∀ j, j ≠ i → ((run World.init as).insts j).file ≠ .id n := by
  have h := inv_run as _ inv_init hf
  obtain ⟨n, _, hn⟩ := h.has i (by rw [hi]; decide) (by rw [hi]; decide)
  refine ⟨n, hn, ?_, fun j hj e => hj (h.ids j i n e hn)⟩
  have := h.own i (Or.inr (Or.inr hi))
  rw [hn] at this
  exact this

theorem C127_partial_case : (run World.init takeover).lock = some 102 ∧
    ((run World.init takeover).insts 1).file = .id 102 ∧ ((run World.init takeover).insts 0).file = .id 101 := by
  refine ⟨?_, ?_, ?_⟩ <;> decide +kernel

/-- C127 fails.  A base backup of the first instance, with its lock file, is started after
the first instance made another checkpoint.  The start is refused, as it must be, but the
lock of the first instance is deleted.  The first instance runs on without a lock, and an
up-to-date copy without a lock file can start beside it. -/
theorem C127_violated :
    let as := first ++ [.copy 0 1 true, .checkpoint 0 0 60, .upload 0, .start 1, .put 1 false, .get 1, .check 1, .delete 1]
    let w := run World.init as
    let w' := run World.init (as ++ [.copy 0 2 false, .start 2, .write 2 103, .put 2 false, .check 2])
    (w.insts 0).pc = .running ∧ (w.insts 1).pc = .off ∧ w.lock = none ∧
    (w'.insts 0).pc = .running ∧ (w'.insts 2).pc = .running := by
  refine ⟨?_, ?_, ?_, ?_, ?_⟩ <;> decide +kernel

/-! ## C128 -/

/-- C128, part.  An instance that was running and was killed can start again, whatever the
other instances do in between, if its data directory is left alone: it finds its own lock
and its control file is not behind the bucket.  Missing: an instance killed during its
first start, see `C128_violated`. -/
theorem C128_partial (as bs : List Act) (i : Nat) (hf : FairRun World.init as)
    (hi : ((run World.init as).insts i).pc = .running)
    (hb : FairRun (step (run World.init as) (.kill i)) bs) (ht : ∀ a ∈ bs, i ≠ a.target) :
    ((run World.init (as ++ [.kill i] ++ bs ++ [.start i, .put i false, .get i, .check i])).insts i).pc = .running := by
  have h := inv_run as _ inv_init hf
  obtain ⟨n, hn0, hn⟩ := h.has i (by rw [hi]; decide) (by rw [hi]; decide)
  have ho := h.own i (Or.inr (Or.inr hi))
  rw [hn] at ho
  have hk : Waits i n (step (run World.init as) (.kill i)) := by
    refine ⟨inv_step h (.kill i) trivial, ?_, ?_, ho, ?_⟩
    · show ((World.set _ i _).insts i).pc = _; rw [set_same]
    · show ((World.set _ i _).insts i).file = _; rw [set_same]; exact hn
    · show Ge ((World.set _ i _).insts i).ctl _; rw [set_same]; exact h.ge i hi
  have hw := waits_run bs _ hk hb ht
  have e : run World.init (as ++ [.kill i] ++ bs ++ [.start i, .put i false, .get i, .check i]) =
      run (run (step (run World.init as) (.kill i)) bs) [.start i, .put i false, .get i, .check i] := by
    unfold run
    rw [List.foldl_append, List.foldl_append, List.foldl_append]
    rfl
  rw [e]
  generalize run (step (run World.init as) (.kill i)) bs = w at hw
  have s1 : step w (.start i) = w.set i { w.insts i with pc := .putting } := by
    unfold step
    simp only [hw.off, if_pos, hw.file, if_neg hn0]
  show ((step (step (step (step w (.start i)) (.put i false)) (.get i)) (.check i)).insts i).pc = _
  rw [s1]
  have hl : (w.set i { w.insts i with pc := .putting }).lock = some n := hw.lock
  have s2 : step (w.set i { w.insts i with pc := .putting }) (.put i false) =
      (w.set i { w.insts i with pc := .putting }).set i { w.insts i with pc := .told } := by
    unfold step
    simp only [set_same, if_pos, hl, Bool.false_eq_true, if_false]
  rw [s2]
  generalize hw1 : (w.set i { w.insts i with pc := .putting }) = w1 at *
  have hl2 : (w1.set i { w.insts i with pc := .told }).lock = some n := hl
  have s3 : step (w1.set i { w.insts i with pc := .told }) (.get i) =
      (w1.set i { w.insts i with pc := .told }).set i { w.insts i with pc := .locked } := by
    unfold step
    have hid : (w.insts i).file.ident = n := by rw [hw.file]; rfl
    simp only [set_same, if_pos, hl2, hid, ne_eq, not_true_eq_false, if_false]
  rw [s3]
  generalize hw2 : w1.set i { w.insts i with pc := .told } = w2 at *
  have hc2 : (w2.set i { w.insts i with pc := .locked }).ctl = w.ctl := by rw [← hw2, ← hw1]; rfl
  have hok : checkControl (w.insts i).ctl w.ctl = true := (checkControl_iff _ _).2 hw.ge
  unfold step
  simp only [set_same, if_pos, hc2, hok]

theorem C128_partial_case : ((run World.init first).insts 0).pc = .running ∧
    ((run World.init (takeover.take 13)).insts 0).pc = .off ∧
    ((run World.init (takeover.take 13 ++ [.start 0, .put 0 false, .get 0, .check 0])).insts 0).pc = .running := by
  refine ⟨?_, ?_, ?_⟩ <;> decide +kernel

/-- C128 fails: an instance killed between the creation of its lock file and the writing of
the identifier can never start again, whatever happens, unless somebody replaces its data
directory. -/
theorem C128_violated (as : List Act) (hc : ∀ a ∈ as, ∀ j l, a ≠ .copy j 0 l) :
    ((run World.init ([.start 0, .kill 0] ++ as)).insts 0).pc = .off := by
  have key : ∀ (as : List Act) (w : World), (∀ a ∈ as, ∀ j l, a ≠ .copy j 0 l) →
      (w.insts 0).pc = .off → (w.insts 0).file = .empty → ((run w as).insts 0).pc = .off := by
    intro as
    induction as with
    | nil => intro w _ h _; exact h
    | cons a as ih =>
      intro w hc h1 h2
      have hs : (step w a).insts 0 = w.insts 0 := by
        by_cases ht : 0 = a.target
        · cases a with
          | kill i =>
            have e : (0 : Nat) = i := ht
            subst e
            show (w.set 0 { w.insts 0 with pc := .off }).insts 0 = _
            rw [set_same, ← h1]
          | copy i j l =>
            have e : (0 : Nat) = j := ht
            subst e
            exact absurd rfl (hc _ List.mem_cons_self i l)
          | _ =>
            simp only [Act.target] at ht
            subst ht
            unfold step
            simp [h1, h2]
        · exact step_other w a 0 ht
      exact ih (step w a) (fun b hb => hc b (List.mem_cons_of_mem _ hb)) (by rw [hs]; exact h1) (by rw [hs]; exact h2)
  have e : run World.init ([.start 0, .kill 0] ++ as) = run (run World.init [.start 0, .kill 0]) as := by
    unfold run
    rw [List.foldl_append]
  rw [e]
  exact key as _ hc (by decide +kernel) (by decide +kernel)

end Verif.S3Lock
