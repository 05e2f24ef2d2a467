/-
Properties of range scans in a snapshot.
-/
import Verif.Visible.ScanInv

namespace Verif.Visible

theorem steadyRun_append : ∀ (l r : List Op) (s : St), s.steadyRun (l ++ r) = true →
    s.steadyRun l = true ∧ (s.run l).steadyRun r = true
  | [], _, _, h => ⟨rfl, h⟩
  | o :: t, r, s, h => by
    simp only [List.cons_append, St.steadyRun, Bool.and_eq_true] at h ⊢
    have := steadyRun_append t r _ h.2
    exact ⟨⟨h.1, this.1⟩, this.2⟩

theorem regularRun_append : ∀ (l r : List Op) (s : St), s.regularRun (l ++ r) = true →
    s.regularRun l = true ∧ (s.run l).regularRun r = true
  | [], _, _, h => ⟨rfl, h⟩
  | o :: t, r, s, h => by
    simp only [List.cons_append, St.regularRun, Bool.and_eq_true] at h ⊢
    have := regularRun_append t r _ h.2
    exact ⟨⟨h.1, this.1⟩, this.2⟩

/-- The tree before the scan. -/
theorem TI.before {sn : Snap} (hc : 0 < sn.csn) : ∀ (ops : List Op), St.init.regularRun ops = true →
    St.init.steadyRun ops = true → (∀ o ∈ ops, o.by ≠ some sn.oxid) → sn.csn ≤ (St.init.run ops).next →
    ∃ H dead, TI sn (fun k => (Book.init.after (St.init.trace ops)).value sn k) (St.init.run ops)
      (St.init.trace ops) H dead := by
  intro ops hr hst hby hn
  have key : ∀ (ops : List Op) (s : St) (past : List Ev) (H : Nat → List Ver) (dead : Ver → Bool),
      Inv s past H dead → Sh 0 s.leaves → (∀ ev ∈ past, ev.by ≠ sn.oxid) → s.st sn.oxid = .running →
      s.regularRun ops = true → s.steadyRun ops = true → (∀ o ∈ ops, o.by ≠ some sn.oxid) →
      ∃ H' dead', Inv (s.run ops) (past ++ s.trace ops) H' dead' ∧ Sh 0 (s.run ops).leaves ∧
        (∀ ev ∈ past ++ s.trace ops, ev.by ≠ sn.oxid) ∧ (s.run ops).st sn.oxid = .running := by
    intro ops
    induction ops with
    | nil =>
      intro s past H dead I S q r _ _ _
      simp only [St.run, St.trace, List.append_nil]
      exact ⟨H, dead, I, S, q, r⟩
    | cons o t ih =>
      intro s past H dead I S q r hr hst hby
      simp only [St.regularRun, Bool.and_eq_true] at hr
      simp only [St.steadyRun, Bool.and_eq_true] at hst
      have hbo := hby o (by simp)
      obtain ⟨H', dead', I', _⟩ := I.step o hr.1
      have q' : ∀ ev ∈ past ++ (s.step o).2.toList, ev.by ≠ sn.oxid := by
        intro ev hev
        rcases List.mem_append.1 hev with hev | hev
        · exact q ev hev
        · have : (s.step o).2 = some ev := by
            cases h : (s.step o).2 with
            | none => rw [h] at hev; simp at hev
            | some e => rw [h] at hev; simp at hev; rw [hev]
          have := (step_ev this).1
          intro h
          rw [h] at this
          exact hbo this
      have r' : (s.step o).1.st sn.oxid = .running := by rw [(step_grow s o).2.2 _ hbo]; exact r
      obtain ⟨H'', dead'', J⟩ := ih _ _ H' dead' I' (S.step I.ok o hst.1) q' r' hr.2 hst.2
        (fun o' ho' => hby o' (by simp [ho']))
      refine ⟨H'', dead'', ?_⟩
      simp only [St.run, St.trace]
      rw [← List.append_assoc]
      exact J
  obtain ⟨H, dead, I, S, q, r⟩ := key ops St.init [] _ _ Inv.init Sh.init (by simp) rfl hr hst hby
  rw [List.nil_append] at I q
  exact ⟨H, dead, I, S, q, r, hc, hn, fun _ => rfl⟩

/-- C72.  A range scan of a reader without changes of its own runs while other
transactions change rows, commit and roll back and pages are split, merged and
compacted, in any order.  The rows returned come in the order of their keys, each is in
the range and has the value it has in the snapshot (the state of the table when the scan
began), and once the scan says that there are no more rows, all of these have been
returned.  From wherever it is, the scan comes to its end.
Missing for the full statement: readers with changes of their own; runs in which a
transaction changes a row again under the lock of another (`C71_dirty_read_violated`);
runs in which a page is split left of the boundary of an earlier merge, both recorded by
differential images, for which it is false (`C72_skipped_rows_violated`). -/
theorem C72_partial (pre : List Op) (es : List SEv) (sn : Snap) (a : Nat) (e : Option Bound)
    (hreg : St.init.regularRun (pre ++ opsOf es) = true)
    (hsteady : St.init.steadyRun (pre ++ opsOf es) = true)
    (hown : ∀ o ∈ pre ++ opsOf es, o.by ≠ some sn.oxid)
    (hc : 0 < sn.csn) (hn : sn.csn ≤ (St.init.run pre).next)
    (ho : (scanRun sn a e es (St.init.run pre) (Scan.start (St.init.run pre) sn a)).1.oldest ≤ sn.csn) :
    let r := scanRun sn a e es (St.init.run pre) (Scan.start (St.init.run pre) sn a)
    let value := fun k => (Book.init.after (St.init.trace pre)).value sn k
    r.2.out.Pairwise (fun x y => x.1 < y.1) ∧
    (∀ k v, (k, v) ∈ r.2.out → inRange a e k ∧ value k = some v) ∧
    (r.2.done = true → ∀ k v, inRange a e k → value k = some v → (k, v) ∈ r.2.out) ∧
    ∃ n, (scanRun sn a e (es ++ List.replicate n .fetch) (St.init.run pre)
      (Scan.start (St.init.run pre) sn a)).2.done = true := by
  obtain ⟨r1, r2⟩ := regularRun_append _ _ _ hreg
  obtain ⟨s1, s2⟩ := steadyRun_append _ _ _ hsteady
  obtain ⟨H, dead, T⟩ := TI.before hc pre r1 s1 (fun o h => hown o (by simp [h])) hn
  have hle := scanRun_oldest sn a e es (St.init.run pre) (Scan.start (St.init.run pre) sn a)
  have I := SI.start (a := a) (e := e) T (by omega)
  obtain ⟨past', H', dead', T', I'⟩ := SI.run es T I r2 s2 (fun o h => hown o (by simp [h])) ho
  refine ⟨I'.order, I'.sound, I'.fin, ?_⟩
  obtain ⟨n, hn⟩ := SI.ends T' ho _ _ I' (Nat.le_refl _) (Nat.le_refl _)
  refine ⟨n, ?_⟩
  rw [scanRun_append, scanRun_turns]
  exact hn

/-! A case that meets the hypotheses. -/

/-- Rows 2 to 30 on two pages, one row deleted. -/
def scanPre : List Op :=
  [.write 1 2 1 false 20, .write 1 5 1 false 50, .write 1 8 1 false 80, .write 1 12 1 false 120,
   .write 1 20 1 false 200, .write 1 25 1 true 0, .commit 1, .split 10 9 false false, .compact 12 9]

/-- A scan during which rows of its snapshot are deleted and changed, new ones appear,
and its pages are compacted, split and merged. -/
def scanEvents : List SEv :=
  [.fetch, .op (.write 2 5 1 true 0), .op (.write 2 6 1 false 60), .op (.commit 2), .op (.compact 5 9),
   .refind, .fetch, .op (.write 3 12 1 true 0), .op (.write 3 20 1 false 201), .op (.commit 3),
   .op (.compact 12 9), .op (.split 7 9 false false), .fetch, .fetch, .op (.merge 10 9 false false),
   .op (.write 4 20 1 true 0), .op (.abort 4), .refind, .fetch, .fetch, .fetch, .op (.split 18 9 false false),
   .fetch, .fetch, .fetch]

/-- A snapshot taken when the scan begins. -/
def scanSnap : Snap := { oxid := 9, csn := 4, cid := 1 }

example : St.init.regularRun (scanPre ++ opsOf scanEvents) = true ∧
    St.init.steadyRun (scanPre ++ opsOf scanEvents) = true ∧
    (∀ o ∈ scanPre ++ opsOf scanEvents, o.by ≠ some 9) ∧
    4 ≤ (St.init.run scanPre).next ∧
    (let r := scanRun scanSnap 3 (some ⟨20, true⟩) scanEvents (St.init.run scanPre)
      (Scan.start (St.init.run scanPre) scanSnap 3)
     r.1.oldest ≤ 4 ∧ r.2.done = true ∧ r.2.out = [(5, 50), (8, 80), (12, 120), (20, 200)]) :=
  ⟨by decide +kernel, by decide +kernel, by decide +kernel, by decide +kernel, by decide +kernel,
   by decide +kernel, by decide +kernel⟩

example : (20, 200) ∈ (scanRun scanSnap 3 (some ⟨20, true⟩) scanEvents (St.init.run scanPre)
    (Scan.start (St.init.run scanPre) scanSnap 3)).2.out :=
  (C72_partial scanPre scanEvents scanSnap 3 (some ⟨20, true⟩) (by decide +kernel) (by decide +kernel)
    (by decide +kernel) (by decide) (by decide +kernel) (by decide +kernel)).2.2.1 (by decide +kernel) 20 200
    ⟨by decide, fun b hb => by cases hb; exact Or.inr ⟨rfl, rfl⟩⟩ (by decide +kernel)

/-! The case left out is false. -/

/-- C72 violated: two pages are merged and the merged page is split again further left,
both recorded by differential images.  A scan of an older snapshot goes from the left
half on at the boundary of the merge: the rows in between are missing. -/
theorem C72_skipped_rows_violated :
    let pre : List Op := [.write 1 2 1 false 20, .write 1 4 1 true 0, .write 1 7 1 false 70, .write 1 12 1 false 120,
      .commit 1, .split 10 9 false false, .merge 10 9 false false, .split 5 9 false false]
    let sn : Snap := { oxid := 9, csn := 3, cid := 1 }
    let r := scanRun sn 0 none [.fetch, .fetch, .fetch, .fetch, .fetch, .fetch] (St.init.run pre)
      (Scan.start (St.init.run pre) sn 0)
    St.init.regularRun pre = true ∧ (∀ o ∈ pre, o.by ≠ some 9) ∧ 3 ≤ (St.init.run pre).next ∧
    r.1.oldest ≤ 3 ∧ r.2.done = true ∧ r.2.out = [(2, 20), (12, 120)] ∧
    (Book.init.after (St.init.trace pre)).value sn 7 = some 70 :=
  ⟨by decide +kernel, by decide +kernel, by decide +kernel, by decide +kernel, by decide +kernel,
   by decide +kernel, by decide +kernel⟩

end Verif.Visible
