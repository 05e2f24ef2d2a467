/-
Properties of look-ups in a snapshot.
-/
import Verif.Visible.Inv

namespace Verif.Visible

/-- The `csn` of the live page of a key. -/
def St.pageCsn (s : St) (k : Nat) : Nat :=
  match leafOf s.leaves k with
  | none => 0
  | some p => p.csn

/-- The reader has undone nothing, and its newest change of the row, if it has one, was
made by an earlier command and is not a deletion. -/
def plainReader (past : List Ev) (sn : Snap) (k : Nat) : Prop :=
  (∀ m, Ev.undid sn.oxid m ∉ past) ∧
  ∀ ch, (Book.init.after past).changes.find?
      (fun ch => decide (ch.key = k) && decide (ch.oxid = sn.oxid)) = some ch →
    ch.cid < sn.cid ∧ ch.value ≠ none

theorem lookup_value {s : St} {past : List Ev} {H : Nat → List Ver} {dead : Ver → Bool}
    (I : Inv s past H dead) {sn : Snap} {k : Nat} (hx : s.st sn.oxid = .running)
    (hc : 0 < sn.csn) (ho : s.oldest ≤ sn.csn)
    (h : s.pageCsn k < sn.csn ∨ plainReader past sn k) :
    s.lookup sn k = (Book.init.after past).value sn k := by
  rw [value_firstSeen I hx]
  obtain ⟨p, hp⟩ := I.ok.leaf (k := k)
  have R := I.rows k (p.view k) (by unfold view; rw [hp]; rfl)
  unfold St.lookup
  unfold St.pageCsn at h
  rw [hp] at h ⊢
  simp only at h ⊢
  unfold lookupLeaf
  by_cases hcs : sn.csn ≤ p.csn
  · rw [if_pos hcs]
    rcases h with h | h
    · omega
    obtain ⟨hnu, hown⟩ := h
    have hdead : ∀ e, dead e = true → e.oxid ≠ sn.oxid := by
      intro e he hex
      obtain ⟨m, hm⟩ := I.deadU e he
      rw [hex] at hm
      exact hnu m hm
    have hold : (∀ e ∈ H k, e.oxid ≠ sn.oxid) →
        findVersion s.st sn (get (readUndo sn.csn k p.hist p.img).items k) = firstSeen s.st sn (H k) := by
      intro hH
      rw [readUndo_get]
      exact Levs.read hc ho hH hdead _ _ _ _ _ R.levs hcs
    cases hu : s.undo sn.oxid with
    | false =>
      simp only [Bool.false_eq_true, if_false]
      apply hold
      intro e he hex
      have := (R.hs e he).2.2.1
      rw [hex, hu] at this
      simp at this
    | true =>
      simp only [if_true]
      by_cases hw : ∃ w, (plain (get p.items k)).head? = some w ∧ w.oxid = sn.oxid
      · obtain ⟨w, hw1, hw2⟩ := hw
        rw [fetchOur_plain, hw1]
        simp only [hw2, if_true]
        obtain ⟨old, hH, _⟩ := R.split
        obtain ⟨r, hr⟩ : ∃ r, plain (get p.items k) = w :: r := by
          cases hpl : plain (get p.items k) with
          | nil => rw [hpl] at hw1; simp at hw1
          | cons a r => rw [hpl] at hw1; simp at hw1; subst hw1; exact ⟨r, rfl⟩
        have hH' : H k = w :: (r ++ old) := by
          have : (p.view k).2.1 = get p.items k := rfl
          rw [hH, this, hr]; rfl
        have hfind : (Book.init.after past).changes.find?
            (fun ch => decide (ch.key = k) && decide (ch.oxid = sn.oxid)) = some (toChange k w) := by
          have : (Book.init.after past).changes.find?
              (fun ch => decide (ch.key = k) && decide (ch.oxid = sn.oxid)) =
              ((Book.init.after past).changes.filter (fun ch => decide (ch.key = k))).find?
                (fun ch => decide (ch.oxid = sn.oxid)) := by
            rw [List.find?_filter]
            congr 1; funext ch; simp
          rw [this, I.changes k, hH', List.map_cons, List.find?_cons]
          simp [toChange, hw2]
        obtain ⟨hcid, hval⟩ := hown _ hfind
        have hdel : w.del = false := by
          cases hd : w.del with
          | false => rfl
          | true => simp [toChange, hd] at hval
        have hstop : stopsAt s.st sn w = true := by
          have hlk := (R.hs w (by rw [hH']; simp)).1
          have hcid' : w.cid < sn.cid := hcid
          unfold stopsAt
          rw [hw2]
          simp [hx, hlk, hcid']
        rw [hH']
        simp [firstSeen, hstop, hdel]
      · have hne : ∀ w, (plain (get p.items k)).head? = some w → w.oxid ≠ sn.oxid :=
          fun w h1 h2 => hw ⟨w, h1, h2⟩
        have hnone : fetchOur sn.oxid (get p.items k) = none := by
          rw [fetchOur_plain]
          cases hpl : (plain (get p.items k)).head? with
          | none => rfl
          | some e => simp [hne e hpl]
        rw [hnone]
        simp only
        exact hold (R.top_own hx hne)
  · rw [if_neg hcs]
    exact R.levs.head.read (show p.csn < sn.csn by omega) ho (Or.inl rfl)

/-- C71.  After any run in which no transaction changes a row again under the lock of
another, a look-up finds the value the row has in the snapshot, if the live page is
older than the snapshot or if the reader has undone nothing and has not deleted the row
or changed it by the present command.
Missing for the full statement: the other cases, in which it is false
(`C71_dirty_read_violated`, `C71_own_deletion_violated`, `C71_later_command_violated`,
`C71_savepoint_violated`). -/
theorem C71_partial (ops : List Op) (sn : Snap) (k : Nat)
    (hreg : St.init.regularRun ops = true)
    (hx : (St.init.run ops).st sn.oxid = .running) (hc : 0 < sn.csn)
    (ho : (St.init.run ops).oldest ≤ sn.csn)
    (h : (St.init.run ops).pageCsn k < sn.csn ∨ plainReader (St.init.trace ops) sn k) :
    (St.init.run ops).lookup sn k = (Book.init.after (St.init.trace ops)).value sn k := by
  obtain ⟨H, dead, I⟩ := Inv.init.run ops hreg
  rw [List.nil_append] at I
  exact lookup_value I hx hc ho h

/-- C71.  A reader which has neither changed the row nor undone anything finds the value
of the row in its snapshot. -/
theorem C71_reader_partial (ops : List Op) (sn : Snap) (k : Nat)
    (hreg : St.init.regularRun ops = true)
    (hx : (St.init.run ops).st sn.oxid = .running) (hc : 0 < sn.csn)
    (ho : (St.init.run ops).oldest ≤ sn.csn)
    (hu : ∀ m, Ev.undid sn.oxid m ∉ St.init.trace ops)
    (hw : ∀ cid loc del v, Ev.wrote sn.oxid k cid loc del v ∉ St.init.trace ops) :
    (St.init.run ops).lookup sn k = (Book.init.after (St.init.trace ops)).value sn k := by
  refine C71_partial ops sn k hreg hx hc ho (Or.inr ⟨hu, ?_⟩)
  have key : ∀ (l : List Ev) (b : Book) (ch : Change),
      ch ∈ (b.after l).changes → ch ∈ b.changes ∨
        ∃ del v, Ev.wrote ch.oxid ch.key ch.cid ch.pos del v ∈ l := by
    intro l
    induction l with
    | nil => intro b ch h; exact Or.inl h
    | cons e l ih =>
      intro b ch h
      rcases ih (b.step e) ch h with h | ⟨d, v, h⟩
      · cases e with
        | wrote x k cid pos del v =>
          rcases List.mem_cons.1 h with rfl | h
          · exact Or.inr ⟨del, v, by simp⟩
          · exact Or.inl h
        | undid x m => exact Or.inl (List.mem_filter.1 h).1
        | committed x q => exact Or.inl h
      · exact Or.inr ⟨d, v, by simp [h]⟩
  intro ch hch
  have h1 := List.mem_of_find?_eq_some hch
  have h2 := List.find?_some hch
  simp only [Bool.and_eq_true, decide_eq_true_eq] at h2
  rcases key _ _ ch h1 with h | ⟨d, v, h⟩
  · simp [Book.init] at h
  · rw [h2.1, h2.2] at h; exact absurd h (hw _ _ _ _)

/-! Cases that meet the hypotheses. -/

/-- Three transactions change rows on pages that are split, merged and compacted. -/
def sample : List Op :=
  [.write 1 5 1 false 10, .write 1 6 1 false 11, .write 1 20 1 false 12, .write 1 30 1 true 0, .commit 1,
   .split 10 0 true false, .write 2 5 1 false 50, .write 2 20 1 true 0, .lock 4 6 1, .commit 2,
   .compact 5 9, .write 3 6 1 false 60, .split 25 0 false false, .merge 10 9 false false,
   .write 9 30 1 false 99, .merge 25 9 false false, .compact 5 3]

/-- The snapshot of transaction 9, taken before transaction 2 committed. -/
def sampleSnap : Snap := { oxid := 9, csn := 3, cid := 2 }

example : St.init.regularRun sample = true ∧ (St.init.run sample).st 9 = .running ∧
    (St.init.run sample).oldest ≤ 3 ∧ ¬ (St.init.run sample).pageCsn 5 < 3 ∧
    (St.init.run sample).undo 9 = true ∧ (St.init.run sample).row 20 = [] ∧
    (St.init.run sample).lookup sampleSnap 5 = some 10 ∧
    (St.init.run sample).lookup sampleSnap 6 = some 11 ∧
    (St.init.run sample).lookup sampleSnap 20 = some 12 ∧
    (St.init.run sample).lookup sampleSnap 30 = some 99 :=
  ⟨by decide +kernel, by decide +kernel, by decide +kernel, by decide +kernel, by decide +kernel,
   by decide +kernel, by decide +kernel, by decide +kernel, by decide +kernel, by decide +kernel⟩

theorem sample_plain (k : Nat) :
    plainReader (St.init.trace sample) sampleSnap k := by
  have hnu : ∀ m, Ev.undid 9 m ∉ St.init.trace sample := by
    have h : (St.init.trace sample).all (fun e => match e with | .undid x _ => decide (x ≠ 9) | _ => true) = true := by
      decide +kernel
    intro m hm
    have := List.all_eq_true.1 h _ hm
    simp at this
  refine ⟨hnu, ?_⟩
  have h : ((Book.init.after (St.init.trace sample)).changes.filter
      (fun ch => decide (ch.oxid = 9))).all (fun ch => decide (ch.cid < 2) && decide (ch.value ≠ none)) = true := by
    decide +kernel
  intro ch hch
  have h1 := List.mem_of_find?_eq_some hch
  have h2 := List.find?_some hch
  simp only [Bool.and_eq_true, decide_eq_true_eq] at h2
  have := List.all_eq_true.1 h ch (List.mem_filter.2 ⟨h1, by simpa [sampleSnap] using h2.2⟩)
  simp only [Bool.and_eq_true, decide_eq_true_eq] at this
  exact this

example : (St.init.run sample).lookup sampleSnap 20 =
    (Book.init.after (St.init.trace sample)).value sampleSnap 20 :=
  C71_partial sample sampleSnap 20 (by decide +kernel) (by decide +kernel) (by decide)
    (by decide +kernel) (Or.inr (sample_plain 20))

example : (St.init.run sample).lookup sampleSnap 20 =
    (Book.init.after (St.init.trace sample)).value sampleSnap 20 := by
  refine C71_reader_partial sample sampleSnap 20 (by decide +kernel) (by decide +kernel) (by decide)
    (by decide +kernel) (sample_plain 20).1 ?_
  have h : (St.init.trace sample).all
      (fun e => match e with | .wrote x k _ _ _ _ => decide (x ≠ 9 ∨ k ≠ 20) | _ => true) = true := by
    decide +kernel
  intro cid loc del v hm
  have := List.all_eq_true.1 h _ hm
  simp [sampleSnap] at this

/-! The cases left out are false. -/

/-- C71 violated: a committed lock between two changes of a running transaction makes its
first change, which is not committed, visible to others. -/
theorem C71_dirty_read_violated :
    let ops : List Op := [.write 1 5 1 false 10, .commit 1, .write 2 5 1 false 20, .lock 3 5 1,
      .write 2 5 2 false 30, .commit 3]
    let sn : Snap := { oxid := 9, csn := 3, cid := 1 }
    (St.init.run ops).st 2 = .running ∧ (St.init.run ops).st 9 = .running ∧
    (St.init.run ops).lookup sn 5 = some 20 ∧
    (Book.init.after (St.init.trace ops)).value sn 5 = some 10 :=
  ⟨by decide +kernel, by decide +kernel, by decide +kernel, by decide +kernel⟩

/-- C71 violated: a row deleted by the reader is still found if the page was compacted
after the snapshot was taken. -/
theorem C71_own_deletion_violated :
    let ops : List Op := [.write 1 5 1 false 10, .write 1 6 1 false 10, .write 1 7 1 true 0, .commit 1,
      .write 2 8 1 false 1, .compact 5 0, .write 2 5 2 true 0]
    let sn : Snap := { oxid := 2, csn := 2, cid := 3 }
    St.init.regularRun ops = true ∧ (St.init.run ops).lookup sn 5 = some 10 ∧
    (Book.init.after (St.init.trace ops)).value sn 5 = none :=
  ⟨by decide +kernel, by decide +kernel, by decide +kernel⟩

/-- C71 violated: the reader's change made by a later command than the snapshot's is
found if the page was compacted after the snapshot was taken. -/
theorem C71_later_command_violated :
    let ops : List Op := [.write 1 5 1 false 10, .commit 1, .compact 5 0, .write 2 5 2 false 20]
    let sn : Snap := { oxid := 2, csn := 2, cid := 2 }
    St.init.regularRun ops = true ∧ (St.init.run ops).lookup sn 5 = some 20 ∧
    (Book.init.after (St.init.trace ops)).value sn 5 = some 10 :=
  ⟨by decide +kernel, by decide +kernel, by decide +kernel⟩

/-- C71 violated: a change the reader rolled back to a savepoint is found on the image
of a page compacted in between. -/
theorem C71_savepoint_violated :
    let ops : List Op := [.write 1 5 1 false 10, .commit 1, .write 2 5 1 false 20, .compact 5 0,
      .rollbackTo 2 0, .write 2 6 2 false 1]
    let sn : Snap := { oxid := 2, csn := 2, cid := 3 }
    St.init.regularRun ops = true ∧ (St.init.run ops).lookup sn 5 = some 20 ∧
    (Book.init.after (St.init.trace ops)).value sn 5 = some 10 :=
  ⟨by decide +kernel, by decide +kernel, by decide +kernel⟩

end Verif.Visible
