import Verif.Image.Ahead
/-!
# C79 and C80: recovery over the image of a checkpoint
-/

namespace Verif.Image

theorem prun_xid {es : List Ev} {s s' : PSt} {rs : List Rec} (h : prun s es = some (s', rs)) :
    (∀ e ∈ es, s.fin e.xid = false) ∧ ∀ z, s.fin z = true → s'.fin z = true := by
  induction es generalizing s rs with
  | nil =>
    obtain ⟨rfl, _⟩ := Prod.mk.inj (Option.some.inj h)
    exact ⟨by simp, fun _ hz => hz⟩
  | cons e es ih =>
    obtain ⟨s1, rc, rs', h1, h2, rfl⟩ := prun_cons h
    obtain ⟨hf, hm, _⟩ := pstep_short h1
    obtain ⟨i1, i2⟩ := ih h2
    refine ⟨?_, fun z hz => i2 z (hm z hz)⟩
    intro g hg
    rcases List.mem_cons.mp hg with rfl | hg
    · exact hf
    · cases hgf : s.fin g.xid with
      | false => rfl
      | true =>
        have := i1 g hg
        rw [hm _ hgf] at this
        cases this

theorem pstep_sps {s s' : PSt} {e : Ev} {rc : Rec} (hb : ∀ x, ∀ p ∈ s.sps x, p.2 < s.now)
    (h : pstep s e = some (s', rc)) : ∀ x, ∀ p ∈ s'.sps x, p.2 < s'.now := by
  have keep : s'.sps = s.sps → s'.now = s.now + 1 → ∀ x, ∀ p ∈ s'.sps x, p.2 < s'.now := by
    intro h1 h2 x p hp
    rw [h1] at hp
    have := hb x p hp
    omega
  cases e with
  | see x => obtain ⟨_, rfl, _⟩ := step_see h; exact keep rfl rfl
  | ins x v => obtain ⟨hp, _⟩ := step_ins h; exact keep hp.sps' hp.now'
  | upd x v => obtain ⟨hp, _⟩ := step_upd h; exact keep hp.sps' hp.now'
  | del x => obtain ⟨_, _, _, _, hp, _⟩ := step_del h; exact keep hp.sps' hp.now'
  | fin x ok =>
    cases ok with
    | true => obtain ⟨_, rfl, _⟩ := step_commit h; exact keep rfl rfl
    | false => obtain ⟨_, rfl, _⟩ := step_abort h; exact keep rfl rfl
  | sp x =>
    obtain ⟨_, rfl, _⟩ := step_sp h
    intro z p hp
    show p.2 < s.now + 1
    change p ∈ set s.sps x _ z at hp
    by_cases hz : z = x
    · subst hz
      rw [set_same] at hp
      rcases List.mem_cons.mp hp with rfl | hp
      · exact Nat.lt_succ_self _
      · have := hb z p hp; omega
    · rw [set_other _ _ hz] at hp
      have := hb z p hp; omega
  | rb x =>
    obtain ⟨_, id, t, rest, hs, rfl, _⟩ := step_rb h
    intro z p hp
    show p.2 < s.now + 1
    change p ∈ set s.sps x _ z at hp
    by_cases hz : z = x
    · subst hz
      rw [set_same] at hp
      have := hb z p (by rw [hs]; simp [hp]); omega
    · rw [set_other _ _ hz] at hp
      have := hb z p hp; omega

theorem prun_sps {es : List Ev} {s s' : PSt} {rs : List Rec} (hb : ∀ x, ∀ p ∈ s.sps x, p.2 < s.now)
    (h : prun s es = some (s', rs)) : ∀ x, ∀ p ∈ s'.sps x, p.2 < s'.now := by
  induction es generalizing s rs with
  | nil =>
    obtain ⟨rfl, _⟩ := Prod.mk.inj (Option.some.inj h)
    exact hb
  | cons e es ih =>
    obtain ⟨s1, rc, rs', h1, h2, rfl⟩ := prun_cons h
    exact ih (pstep_sps hb h1) h2

theorem subtran_xid {x : Nat} {e : Ev} (h : subtran x e = true) : x = e.xid := by
  cases e <;> simp_all [subtran, Ev.xid]

/-- The beginning of the replay. -/
theorem start_ahead {v : Option Nat} {e1 : List Ev} {s1 s2 : PSt} {r1 : List Rec} {A : Nat → Prop}
    (h1 : prun (pinit v) e1 = some (s1, r1)) : Ahead A s1.now s2 s1 (start s1 s2) := by
  refine ⟨rfl, rfl, Nat.le_refl _, rfl, ?_, ?_⟩
  · intro x
    exact ⟨s1.sps x, rfl, prun_sps (by simp [pinit]) h1 x⟩
  · intro x hx _
    simp [start, hx]

/-- Transactions with savepoints have no version in the image. -/
theorem apart_absent {v : Option Nat} {e1 e2 late : List Ev} {s1 s2 : PSt} {r1 r2 : List Rec}
    (h1 : prun (pinit v) e1 = some (s1, r1)) (h2 : prun s1 e2 = some (s2, r2))
    (hl : ∀ e ∈ late, s1.fin e.xid = false)
    (ha : SavepointsApart (e1 ++ e2) late) :
    ∀ x, (∃ e ∈ late, subtran x e = true) → ∀ w ∈ s2.chain, w.xid ≠ x := by
  rintro x ⟨e, he, hx⟩
  have ht := ha x ⟨e, he, hx⟩
  have hx0 : x ≠ 0 := by
    rintro rfl
    have h0 := (prun_xid h1).2 0 rfl
    have := hl e he
    rw [← subtran_xid hx, h0] at this
    cases this
  refine prun_absent (.inr (fun f hf => ht f (by simp [hf]))) ?_ h2
  refine prun_absent (.inr (fun f hf => ht f (by simp [hf]))) ?_ h1
  intro w hw
  cases v with
  | none => simp [pinit] at hw
  | some a =>
    simp [pinit] at hw
    subst hw
    exact fun h => hx0 h.symm

/-- **C79** (partial: the transactions which use savepoints after the start of the replay must not have
changed the row before its page was written; see the two violations).  A row goes through `e1`; the log
is replayed from there; in `e2` its page is written by the checkpoint; the trees are consistent for the
replay after `e3`; the server crashes after `e4`.  If the replay of the log over the image comes to its
end, the row has the last value committed before the crash. -/
theorem C79_image_partial {v : Option Nat} {e1 e2 e3 e4 : List Ev} {s1 s2 s3 s4 : PSt}
    {r1 r2 r3 r4 : List Rec} {r r' : St}
    (h1 : prun (pinit v) e1 = some (s1, r1)) (h2 : prun s1 e2 = some (s2, r2))
    (h3 : prun s2 e3 = some (s3, r3)) (h4 : prun s3 e4 = some (s4, r4))
    (ha : SavepointsApart (e1 ++ e2) (e2 ++ e3 ++ e4))
    (hr : replay false (start s1 s2) (r2 ++ r3) = some r) (hr' : replay true r r4 = some r') :
    ended r' = committed s4 := by
  have i1 := prun_inv (pinit_inv v) h1
  have i2 := prun_inv i1 h2
  have i3 := prun_inv i2 h3
  have i4 := prun_inv i3 h4
  have hl : ∀ e ∈ e2 ++ e3 ++ e4, s1.fin e.xid = false := by
    have back : ∀ z, s2.fin z = false → s1.fin z = false := by
      intro z hz
      cases hf : s1.fin z with
      | false => rfl
      | true => rw [(prun_xid h2).2 z hf] at hz; cases hz
    have back3 : ∀ z, s3.fin z = false → s1.fin z = false := by
      intro z hz
      cases hf : s2.fin z with
      | false => exact back z hf
      | true => rw [(prun_xid h3).2 z hf] at hz; cases hz
    intro e he
    simp only [List.mem_append] at he
    rcases he with (he | he) | he
    · exact (prun_xid h2).1 e he
    · exact back _ ((prun_xid h3).1 e he)
    · exact back3 _ ((prun_xid h4).1 e he)
  have habs := apart_absent h1 h2 hl ha
  -- the records up to the image, then the others before the trees are consistent
  have hsplit : ∀ (a b : List Rec) (q q' : St), replay false q (a ++ b) = some q' →
      ∃ m, replay false q a = some m ∧ replay false m b = some q' := by
    intro a b
    induction a with
    | nil => intro q q' h; exact ⟨q, rfl, h⟩
    | cons c a ih =>
      intro q q' h
      simp only [List.cons_append, replay] at h ⊢
      split at h
      · cases h
      · exact ih _ _ h
  obtain ⟨m, hm, hr3⟩ := hsplit r2 r3 _ _ hr
  have s2y := ahead_run (A := fun x => ∃ e ∈ e2 ++ e3 ++ e4, subtran x e = true) i1 (start_ahead h1)
    (fun x ⟨e, he, hx⟩ => ⟨e, by simp [he], hx⟩)
    (fun x hx e he => ha x hx e (by simp [he])) habs h2 hm
  obtain ⟨q3, hq3, s3y⟩ := sync_run (late := false) i2 s2y
    (fun x ⟨e, he, hx⟩ => ⟨e, by simp [he], hx⟩) h3
  rw [hr3] at hq3
  obtain rfl := Option.some.inj hq3
  obtain ⟨q4, hq4, s4y⟩ := sync_run (late := true) i3 s3y
    (fun x ⟨e, he, hx⟩ => ⟨e, by simp [he], hx⟩) h4
  rw [hr'] at hq4
  obtain rfl := Option.some.inj hq4
  exact sync_end i4 s4y

/-- **C80** (partial: the transaction whose version is on the page must not be an early bird; see the
violation).  The replay comes to its end. -/
theorem C80_ends_partial {v : Option Nat} {e1 e2 e3 e4 : List Ev} {s1 s2 s3 s4 : PSt}
    {r1 r2 r3 r4 : List Rec}
    (h1 : prun (pinit v) e1 = some (s1, r1)) (h2 : prun s1 e2 = some (s2, r2))
    (h3 : prun s2 e3 = some (s3, r3)) (h4 : prun s3 e4 = some (s4, r4))
    (ha : SavepointsApart (e1 ++ e2) (e2 ++ e3 ++ e4))
    (hb : ∀ u d, s2.chain = u :: d → ¬ EarlyBird e2 u.xid) :
    ∃ r r', replay false (start s1 s2) (r2 ++ r3) = some r ∧ replay true r r4 = some r' := by
  have i1 := prun_inv (pinit_inv v) h1
  have i2 := prun_inv i1 h2
  have i3 := prun_inv i2 h3
  have hl : ∀ e ∈ e2 ++ e3 ++ e4, s1.fin e.xid = false := by
    have back : ∀ z, s2.fin z = false → s1.fin z = false := by
      intro z hz
      cases hf : s1.fin z with
      | false => rfl
      | true => rw [(prun_xid h2).2 z hf] at hz; cases hz
    have back3 : ∀ z, s3.fin z = false → s1.fin z = false := by
      intro z hz
      cases hf : s2.fin z with
      | false => exact back z hf
      | true => rw [(prun_xid h3).2 z hf] at hz; cases hz
    intro e he
    simp only [List.mem_append] at he
    rcases he with (he | he) | he
    · exact (prun_xid h2).1 e he
    · exact back _ ((prun_xid h3).1 e he)
    · exact back3 _ ((prun_xid h4).1 e he)
  have habs := apart_absent h1 h2 hl ha
  obtain ⟨m, hm⟩ := ahead_ends (A := fun x => ∃ e ∈ e2 ++ e3 ++ e4, subtran x e = true) (pre := [])
    i1 (start_ahead h1) (fun x ⟨e, he, hx⟩ => ⟨e, by simp [he], hx⟩)
    (fun x hx e he => ha x hx e (by simp [he])) habs (by simp) (by simp [start]) h2 hb
  have s2y := ahead_run (A := fun x => ∃ e ∈ e2 ++ e3 ++ e4, subtran x e = true) i1 (start_ahead h1)
    (fun x ⟨e, he, hx⟩ => ⟨e, by simp [he], hx⟩)
    (fun x hx e he => ha x hx e (by simp [he])) habs h2 hm
  obtain ⟨q3, hq3, s3y⟩ := sync_run (late := false) i2 s2y
    (fun x ⟨e, he, hx⟩ => ⟨e, by simp [he], hx⟩) h3
  obtain ⟨q4, hq4, _⟩ := sync_run (late := true) i3 s3y
    (fun x ⟨e, he, hx⟩ => ⟨e, by simp [he], hx⟩) h4
  have hjoin : ∀ (a b : List Rec) (q q' q'' : St), replay false q a = some q' →
      replay false q' b = some q'' → replay false q (a ++ b) = some q'' := by
    intro a b
    induction a with
    | nil => intro q q' q'' h h'; obtain rfl := Option.some.inj h; exact h'
    | cons c a ih =>
      intro q q' q'' h h'
      simp only [List.cons_append, replay] at h ⊢
      split at h
      · cases h
      · exact ih _ _ _ h h'
  exact ⟨q3, q4, hjoin _ _ _ _ _ hm hq3, hq4⟩

/-! ## A concrete history -/

/-- Run the four parts of a history, and the replay; the result of the replay and what it should be. -/
def trial (v : Option Nat) (e1 e2 e3 e4 : List Ev) : Option (Option (Option Nat) × Option Nat) :=
  match prun (pinit v) e1 with
  | none => none
  | some (s1, _) =>
    match prun s1 e2 with
    | none => none
    | some (s2, r2) =>
      match prun s2 e3 with
      | none => none
      | some (s3, r3) =>
        match prun s3 e4 with
        | none => none
        | some (s4, r4) =>
          match replay false (start s1 s2) (r2 ++ r3) with
          | none => some (none, committed s4)
          | some r =>
            match replay true r r4 with
            | none => some (none, committed s4)
            | some r' => some (some (ended r'), committed s4)

/-- What a trial stands for. -/
theorem trial_some {v : Option Nat} {e1 e2 e3 e4 : List Ev} {g : Option (Option Nat)} {w : Option Nat}
    (h : trial v e1 e2 e3 e4 = some (g, w)) :
    ∃ s1 s2 s3 s4 r1 r2 r3 r4, prun (pinit v) e1 = some (s1, r1) ∧ prun s1 e2 = some (s2, r2) ∧
      prun s2 e3 = some (s3, r3) ∧ prun s3 e4 = some (s4, r4) ∧ committed s4 = w ∧
      (∀ a, g = some a → ∃ r r', replay false (start s1 s2) (r2 ++ r3) = some r ∧
        replay true r r4 = some r' ∧ ended r' = a) ∧
      (g = none → ¬ ∃ r r', replay false (start s1 s2) (r2 ++ r3) = some r ∧
        replay true r r4 = some r') := by
  simp only [trial] at h
  split at h; · cases h
  rename_i s1 r1 h1
  split at h; · cases h
  rename_i s2 r2 h2
  split at h; · cases h
  rename_i s3 r3 h3
  split at h; · cases h
  rename_i s4 r4 h4
  refine ⟨s1, s2, s3, s4, r1, r2, r3, r4, h1, h2, h3, h4, ?_⟩
  split at h
  · rename_i hr
    obtain ⟨rfl, rfl⟩ := Prod.mk.inj (Option.some.inj h)
    exact ⟨rfl, by simp, fun _ ⟨r, r', h5, _⟩ => by rw [hr] at h5; cases h5⟩
  · rename_i r hr
    split at h
    · rename_i hr'
      obtain ⟨rfl, rfl⟩ := Prod.mk.inj (Option.some.inj h)
      exact ⟨rfl, by simp, fun _ ⟨q, r', h5, h6⟩ => by
        rw [hr] at h5
        obtain rfl := Option.some.inj h5
        rw [hr'] at h6; cases h6⟩
    · rename_i r' hr'
      obtain ⟨rfl, rfl⟩ := Prod.mk.inj (Option.some.inj h)
      refine ⟨rfl, ?_, by simp⟩
      intro a ha
      exact ⟨r, r', hr, hr', Option.some.inj ha⟩

/-- The condition on savepoints as a check. -/
theorem apart_of_check {early late : List Ev}
    (h : (late.all fun e => early.all fun f => !(subtran e.xid e && touches e.xid f)) = true) :
    SavepointsApart early late := by
  rintro x ⟨e, he, hx⟩ f hf
  have hxe := subtran_xid hx
  subst hxe
  have := (List.all_eq_true.mp ((List.all_eq_true.mp h) e he)) f hf
  simpa [hx] using this

/-- A row with value 5.  Transaction 1 changes it before the replay begins and commits after; then 2
changes and commits, 3 changes, the page is written; 3 aborts; 4, which has a savepoint, deletes the
row, inserts it again, rolls back to the savepoint, commits; 5 changes it and is in progress when the
server crashes. -/
def c79e1 : List Ev := [.upd 1 10]
def c79e2 : List Ev := [.see 4, .fin 1 true, .upd 2 20, .del 2, .ins 2 21, .fin 2 true, .upd 3 30]
def c79e3 : List Ev := [.upd 3 31, .fin 3 false, .upd 4 40, .sp 4, .del 4, .ins 4 41]
def c79e4 : List Ev := [.upd 4 42, .rb 4, .fin 4 true, .sp 5, .upd 5 50]

/-- It meets the conditions of C79: what recovery gives is the value 40 of transaction 4. -/
theorem C79_case : SavepointsApart (c79e1 ++ c79e2) (c79e2 ++ c79e3 ++ c79e4) ∧
    trial (some 5) c79e1 c79e2 c79e3 c79e4 = some (some (some 40), some 40) :=
  ⟨apart_of_check (by decide +kernel), by decide +kernel⟩

/-- The negation of `EarlyBird` as a check: in the part before the first change of the row `z` does
nothing, or `z` makes that change. -/
def lateEnough (z : Nat) : List Ev → Bool
  | [] => true
  | e :: es => if changes e then true else e.xid != z && lateEnough z es

theorem early_of_check {es : List Ev} {z : Nat} (h : lateEnough z es = true) : ¬ EarlyBird es z := by
  rintro ⟨a, b, x, f, rfl, hf, ha, hz, g, hg, hgz⟩
  induction a with
  | nil => simp at hg
  | cons e a ih =>
    have hce : changes e = false := by
      cases hc : changes e with
      | false => rfl
      | true => rw [changes, ha e (by simp)] at hc; cases hc
    simp only [List.cons_append, lateEnough, hce, Bool.false_eq_true, if_false, Bool.and_eq_true,
      bne_iff_ne] at h
    rcases List.mem_cons.mp hg with rfl | hg
    · exact h.1 hgz
    · exact ih h.2 (fun k hk => ha k (by simp [hk])) hg

/-- The same history meets the conditions of C80: the version on the page is of transaction 3. -/
theorem C80_case : ∃ s1 s2 r1 r2, prun (pinit (some 5)) c79e1 = some (s1, r1) ∧
    prun s1 c79e2 = some (s2, r2) ∧ s2.chain.head?.map (·.xid) = some 3 ∧
    ∀ u d, s2.chain = u :: d → ¬ EarlyBird c79e2 u.xid := by
  obtain ⟨s1, s2, s3, s4, r1, r2, r3, r4, h1, h2, _⟩ := trial_some C79_case.2
  have key : ∀ (p : Option (PSt × List Rec)), p = some (s1, r1) →
      (match p with
       | none => false
       | some (s1, _) =>
         match prun s1 c79e2 with
         | none => false
         | some (s2, _) => s2.chain.head?.map (·.xid) == some 3) = true →
      s2.chain.head?.map (·.xid) = some 3 := by
    intro p hp hk
    subst hp
    simp only [h2, beq_iff_eq] at hk
    exact hk
  have hh := key _ h1 (by decide +kernel)
  refine ⟨s1, s2, r1, r2, h1, h2, hh, ?_⟩
  intro u d hu
  rw [hu] at hh
  simp at hh
  rw [hh]
  exact early_of_check (by decide +kernel)

/-! ## The failing cases -/

/-- C79 fails: an update before the checkpoint, then a savepoint, then an abort.  The savepoint record
makes the replay drop the checkpoint's undo stack of the transaction, so that the abort leaves the
update in place; once the transaction is below the horizon it counts as committed. -/
theorem C79_aborted_violated : ∃ s1 s2 s3 s4 r1 r2 r3 r4 r r',
    prun (pinit (some 5)) [.upd 1 10] = some (s1, r1) ∧ prun s1 [] = some (s2, r2) ∧
    prun s2 [.sp 1, .fin 1 false] = some (s3, r3) ∧ prun s3 [] = some (s4, r4) ∧
    replay false (start s1 s2) (r2 ++ r3) = some r ∧ replay true r r4 = some r' ∧
    ended r' = some 10 ∧ committed s4 = some 5 := by
  have h : trial (some 5) [.upd 1 10] [] [.sp 1, .fin 1 false] [] = some (some (some 10), some 5) := by
    decide +kernel
  obtain ⟨s1, s2, s3, s4, r1, r2, r3, r4, h1, h2, h3, h4, hc, hg, _⟩ := trial_some h
  obtain ⟨r, r', hr, hr', he⟩ := hg _ rfl
  exact ⟨s1, s2, s3, s4, r1, r2, r3, r4, r, r', h1, h2, h3, h4, hr, hr', he, hc⟩

/-- C79 fails: an update before the start of the replay; then a savepoint, another update, a rollback
to the savepoint, a commit, and a change by another transaction which is on the page.  The conflict with
that change takes off the first update also, and its record is before the start of the replay: the
committed value is lost. -/
theorem C79_committed_violated : ∃ s1 s2 s3 s4 r1 r2 r3 r4 r r',
    prun (pinit (some 5)) [.upd 1 10] = some (s1, r1) ∧
    prun s1 [.sp 1, .upd 1 11, .rb 1, .fin 1 true, .upd 2 20] = some (s2, r2) ∧
    prun s2 [] = some (s3, r3) ∧ prun s3 [.fin 2 false] = some (s4, r4) ∧
    replay false (start s1 s2) (r2 ++ r3) = some r ∧ replay true r r4 = some r' ∧
    ended r' = some 5 ∧ committed s4 = some 10 := by
  have h : trial (some 5) [.upd 1 10] [.sp 1, .upd 1 11, .rb 1, .fin 1 true, .upd 2 20] []
      [.fin 2 false] = some (some (some 5), some 10) := by
    decide +kernel
  obtain ⟨s1, s2, s3, s4, r1, r2, r3, r4, h1, h2, h3, h4, hc, hg, _⟩ := trial_some h
  obtain ⟨r, r', hr, hr', he⟩ := hg _ rfl
  exact ⟨s1, s2, s3, s4, r1, r2, r3, r4, r, r', h1, h2, h3, h4, hr, hr', he, hc⟩

/-- C80 fails: transaction 2 changes some other row; 1 changes this row and commits; 2 changes it; the
page is written.  The replay of the change by 1 finds the version of 2, which is in progress for the
replay, and waits for itself. -/
theorem C80_violated : ∃ s1 s2 s3 s4 r1 r2 r3 r4,
    prun (pinit (some 5)) [] = some (s1, r1) ∧
    prun s1 [.see 2, .upd 1 10, .fin 1 true, .upd 2 20] = some (s2, r2) ∧
    prun s2 [] = some (s3, r3) ∧ prun s3 [.fin 2 true] = some (s4, r4) ∧
    ¬ ∃ r r', replay false (start s1 s2) (r2 ++ r3) = some r ∧ replay true r r4 = some r' := by
  have h : trial (some 5) [] [.see 2, .upd 1 10, .fin 1 true, .upd 2 20] [] [.fin 2 true] =
      some (none, some 20) := by
    decide +kernel
  obtain ⟨s1, s2, s3, s4, r1, r2, r3, r4, h1, h2, h3, h4, hc, _, hg⟩ := trial_some h
  exact ⟨s1, s2, s3, s4, r1, r2, r3, r4, h1, h2, h3, h4, hg rfl⟩

end Verif.Image
