/-
C77, C78: replay of the log leaves the rows and the secondary indexes of the primary.
-/
import Verif.Replay.Run

namespace Verif.Replay

/-! ### C77: rows -/

/-- C77, full claim: after the replay of the log of any history, queries see the committed rows. -/
def C77 : Prop :=
  ∀ (ixs : List Index) (base : Nat → Option Row) (es : List Ev) (p : PSt) (log : List Rec),
    prun (pinit base) es = some (p, log) → RowsRight p (replay ixs (init ixs base) log)

/-- C77 in part.  Missing: histories in which a subtransaction is rolled back after one within it was
released (see `C77_violated`). -/
theorem C77_partial (ixs : List Index) (base : Nat → Option Row) (es : List Ev) (p : PSt)
    (log : List Rec) (h : prun (pinit base) es = some (p, log))
    (hr : NoReleasedInside (fun _ => []) es) : RowsRight p (replay ixs (init ixs base) log) := by
  obtain ⟨m, hi⟩ := Inv.run (Inv.start [] base) h (runCond_nil es _) hr
  have hs : SameRows (replay ixs (init ixs base) log) (replay [] (init [] base) log) := by
    apply sameRows_replay
    refine ⟨?_, rfl, rfl, rfl⟩
    intro pk
    show initRow ixs (base pk) .prim = initRow [] (base pk) .prim
    cases base pk <;> rfl
  intro pk
  rw [hs.1, hs.2.2.2, seen_settled]
  exact (hi.base pk).2

/-! ### C78: secondary indexes -/

/-- C78, full claim: after the replay of the log of any history, the secondary indexes have the
entries of the committed rows. -/
def C78 : Prop :=
  ∀ (ixs : List Index) (base : Nat → Option Row) (es : List Ev) (p : PSt) (log : List Rec),
    prun (pinit base) es = some (p, log) → EntriesRight ixs p (replay ixs (init ixs base) log)

/-- C78 in part.  Missing: a released subtransaction in one rolled back (C77); a row written before a
savepoint and again after it; updates that change the entry but not the key (`C78_violated_*`). -/
theorem C78_partial (ixs : List Index) (base : Nat → Option Row) (es : List Ev) (p : PSt)
    (log : List Rec) (h : prun (pinit base) es = some (p, log))
    (hr : NoReleasedInside (fun _ => []) es) (ha : NoWriteAcross (pinit base) es)
    (hk : SameKeySameEntry ixs (pinit base) es) :
    EntriesRight ixs p (replay ixs (init ixs base) log) := by
  obtain ⟨m, hi⟩ := Inv.run (Inv.start ixs base) h (runCond_of es _ ha hk) hr
  intro i ix hix pk k
  rw [seen_settled]
  have := (hi.base pk).1 i ix hix k
  rw [← (hi.base pk).2]
  exact this

/-- The entry is a function of the key: no INCLUDE columns, no predicate, and values that compare
equal have the same bytes.  Then updates need no condition. -/
def Plain (ix : Index) : Prop := ix.incl = [] ∧ (∀ r, ix.pred r = true)

/-- All values of a history compare equal only if they are the same. -/
def Exact (r : Row) : Prop := ∀ a, (col r a).img = (col r a).cls

theorem plain_entry {ix : Index} (h : Plain ix) {r old : Row} (hr : Exact r) (ho : Exact old)
    (hk : ix.key r = ix.key old) : ix.cells r = ix.cells old := by
  unfold Index.cells
  rw [h.1, List.append_nil]
  unfold Index.key at hk
  apply List.map_inj_left.mpr
  intro a ha
  have h1 := (List.map_inj_left.mp hk) a ha
  have h2 := hr a
  have h3 := ho a
  cases hc : col r a with
  | mk i c =>
    cases hc' : col old a with
    | mk i' c' =>
      rw [hc] at h1 h2
      rw [hc'] at h1 h3
      simp only at h1 h2 h3
      rw [h2, h3, h1]

/-! #### Conditions on statements only -/

/-- Every row anywhere on the primary compares equal only to itself. -/
def ExactSt (p : PSt) : Prop :=
  (∀ pk r, p.base pk = some r → Exact r) ∧
  ∀ x, ∀ f ∈ (p.tx x).frames, ∀ pk r, f pk = some (some r) → Exact r

/-- Every row written compares equal only to itself. -/
def ExactEv : Ev → Prop
  | .ins _ _ r | .upd _ _ r => Exact r
  | _ => True

theorem ExactSt.look {p : PSt} (h : ExactSt p) {x pk : Nat} {r : Row} (hl : p.look x pk = some r) :
    Exact r := by
  unfold PSt.look at hl
  cases hw : (p.tx x).wrote pk with
  | none => rw [hw] at hl; exact h.1 pk r hl
  | some v =>
    rw [hw] at hl
    simp at hl
    rw [hl] at hw
    unfold Tx.wrote at hw
    obtain ⟨f, hf, hfp⟩ := List.exists_of_findSome?_eq_some hw
    exact h.2 x f hf pk r hfp

theorem ExactSt.tx {p : PSt} (h : ExactSt p) {x : Nat} {t : Tx} {o : Nat → Option Nat}
    (ht : ∀ f ∈ t.frames, ∀ pk r, f pk = some (some r) → Exact r) :
    ExactSt { p with tx := upd p.tx x t, owner := o } := by
  refine ⟨h.1, ?_⟩
  intro y f hf
  change f ∈ (upd p.tx x t y).frames at hf
  unfold upd at hf
  split at hf
  · exact ht f hf
  · exact h.2 y f hf

theorem exact_write {p : PSt} (h : ExactSt p) {x pk : Nat} {v : Option Row}
    (hv : ∀ r, v = some r → Exact r) : ExactSt (p.write x pk v) := by
  apply h.tx
  have hx := h.2 x
  unfold Tx.write
  cases hs : (p.tx x).subs with
  | nil =>
    intro f hf q r hq
    simp only [Tx.frames, List.map_nil, List.nil_append, List.mem_singleton] at hf
    subst hf
    simp only at hq
    split at hq
    · cases hq; exact hv _ rfl
    · exact hx _ (by simp [Tx.frames]) q r hq
  | cons s ss =>
    intro f hf q r hq
    simp only [Tx.frames, List.map_cons, List.cons_append, List.mem_cons] at hf
    rcases hf with rfl | hf
    · simp only at hq
      split at hq
      · cases hq; exact hv _ rfl
      · exact hx _ (by simp [Tx.frames, hs]) q r hq
    · exact hx f (by simp only [Tx.frames, hs, List.map_cons, List.cons_append, List.mem_cons]
                     exact Or.inr hf) q r hq

theorem exact_over {f g : Frame} {pk : Nat} {r : Row} (h : over f g pk = some (some r)) :
    f pk = some (some r) ∨ g pk = some (some r) := by
  unfold over at h
  cases hf : f pk with
  | none => rw [hf] at h; exact Or.inr h
  | some v => rw [hf] at h; exact Or.inl h

theorem ExactSt.step {p p' : PSt} {e : Ev} {rs : List Rec} (h : ExactSt p) (he : ExactEv e)
    (hs : pstep p e = some (p', rs)) : ExactSt p' := by
  cases e with
  | ins x pk r =>
    simp only [pstep] at hs
    split at hs
    · cases hs; exact exact_write h fun r' hr => by cases hr; exact he
    · cases hs
  | upd x pk r =>
    simp only [pstep] at hs
    split at hs
    · cases hs; exact exact_write h fun r' hr => by cases hr; exact he
    · cases hs
  | del x pk =>
    simp only [pstep] at hs
    split at hs
    · cases hs; exact exact_write h fun r' hr => by cases hr
    · cases hs
  | sub x =>
    simp only [pstep] at hs
    split at hs
    · cases hs
    · cases hs
      apply h.tx
      intro f hf q r hq
      simp only [Tx.frames, List.map_cons, List.cons_append, List.mem_cons] at hf
      rcases hf with rfl | hf
      · cases hq
      · exact h.2 x f hf q r hq
  | release x =>
    simp only [pstep] at hs
    split at hs
    · cases hs
    · split at hs
      · cases hs
      · next q0 f0 hsub =>
        cases hs
        apply h.tx
        intro f hf q r hq
        simp only [Tx.frames, List.map_nil, List.nil_append, List.mem_singleton] at hf
        subst hf
        rcases exact_over hq with hq | hq
        · exact h.2 x f0 (by simp [Tx.frames, hsub]) q r hq
        · exact h.2 x _ (by simp [Tx.frames]) q r hq
      · next q0 f0 q1 g0 ss hsub =>
        cases hs
        apply h.tx
        intro f hf q r hq
        simp only [Tx.frames, List.map_cons, List.cons_append, List.mem_cons] at hf
        rcases hf with rfl | hf
        · rcases exact_over hq with hq | hq
          · exact h.2 x f0 (by simp [Tx.frames, hsub]) q r hq
          · exact h.2 x g0 (by simp [Tx.frames, hsub]) q r hq
        · exact h.2 x f (by simp only [Tx.frames, hsub, List.map_cons, List.cons_append,
                              List.mem_cons]
                            exact Or.inr (Or.inr hf)) q r hq
  | rollback x =>
    simp only [pstep] at hs
    split at hs
    · cases hs
    · split at hs
      · cases hs
      · next q0 f0 ss hsub =>
        cases hs
        apply h.tx
        intro f hf q r hq
        exact h.2 x f (by simp only [Tx.frames, hsub, List.map_cons, List.cons_append, List.mem_cons]
                          exact Or.inr hf) q r hq
  | commit x =>
    simp only [pstep] at hs
    split at hs
    · cases hs
    · cases hs
      exact ⟨fun pk r hr => h.look hr, h.2⟩
  | abort x =>
    simp only [pstep] at hs
    split at hs
    · cases hs
    · cases hs
      exact h

theorem sameEntry_of_plain {ixs : List Index} (hp : ∀ ix ∈ ixs, Plain ix) :
    ∀ (es : List Ev) (p : PSt), ExactSt p → (∀ e ∈ es, ExactEv e) → SameKeySameEntry ixs p es
  | [], _, _, _ => trivial
  | e :: es, p, h, he => by
    have h1 := he e List.mem_cons_self
    refine ⟨?_, ?_⟩
    · cases e <;> simp only
      intro ix hix old hold hk
      have hpl := hp ix hix
      refine ⟨by rw [hpl.2, hpl.2], fun _ => plain_entry hpl h1 (h.look hold) hk⟩
    · split
      · trivial
      · next p' rs hps =>
        exact sameEntry_of_plain hp es p' (h.step h1 hps) fun e he' => he e (List.mem_cons_of_mem _ he')

/-- C78 in part, for indexes without predicate and INCLUDE columns, and values that compare equal
only if they are the same. -/
theorem C78_plain_partial (ixs : List Index) (base : Nat → Option Row) (es : List Ev) (p : PSt)
    (log : List Rec) (h : prun (pinit base) es = some (p, log))
    (hr : NoReleasedInside (fun _ => []) es) (ha : NoWriteAcross (pinit base) es)
    (hp : ∀ ix ∈ ixs, Plain ix) (hb : ∀ pk r, base pk = some r → Exact r)
    (he : ∀ e ∈ es, ExactEv e) : EntriesRight ixs p (replay ixs (init ixs base) log) := by
  refine C78_partial ixs base es p log h hr ha (sameEntry_of_plain hp es _ ?_ he)
  refine ⟨hb, ?_⟩
  intro x f hf pk r hfr
  simp [pinit, Tx.frames] at hf
  rw [hf] at hfr
  cases hfr

/-! ### Cases -/

/-- A value that is its own class. -/
def val (n : Nat) : Cell := ⟨n, n⟩

/-- Index on the first column. -/
def ixA : Index := ⟨[0], [], fun _ => true⟩

/-- Index on the first column with the second one included. -/
def ixInc : Index := ⟨[0], [1], fun _ => true⟩

/-- Index on the first column of the rows whose second column is 1. -/
def ixPart : Index := ⟨[0], [], fun r => (col r 1).cls == 1⟩

/-- A table with rows 1 and 2. -/
def base0 : Nat → Option Row
  | 1 => some [val 5, val 1]
  | 2 => some [val 6, val 0]
  | _ => none

/-- Two transactions interleaved, with a subtransaction rolled back, one released, an abort, updates
of the key, a deletion and an insertion. -/
def history : List Ev :=
  [.upd 10 1 [val 7, val 1], .ins 11 3 [val 8, val 2], .sub 10, .del 10 2, .rollback 10, .sub 10,
   .upd 10 2 [val 9, val 0], .release 10, .sub 11, .ins 11 4 [val 4, val 4], .release 11, .commit 10,
   .del 12 1, .abort 12, .commit 11, .ins 13 1000 [val 1, val 1]]

theorem history_runs : (prun (pinit base0) history).isSome = true := by decide +kernel

theorem history_tidy : NoReleasedInside (fun _ => []) history := by
  simp [history, NoReleasedInside, upd]

/-- The case for `C77_partial`: the history runs, and row 2 is seen updated, row 4 inserted. -/
theorem C77_partial_case : ∃ p log, prun (pinit base0) history = some (p, log) ∧
    NoReleasedInside (fun _ => []) history ∧ p.base 2 = some [val 9, val 0] ∧
    p.base 4 = some [val 4, val 4] ∧ p.base 1 = some [val 7, val 1] := by
  refine ⟨((prun (pinit base0) history).get (by decide +kernel)).1,
    ((prun (pinit base0) history).get (by decide +kernel)).2, ?_, history_tidy, ?_, ?_, ?_⟩
  · exact (Option.some_get (by decide +kernel)).symm
  · decide +kernel
  · decide +kernel
  · decide +kernel

/-- `NoWriteAcross`, to be computed. -/
def nwa : PSt → List Ev → Bool
  | _, [] => true
  | p, e :: es =>
    (match e with
     | .ins x pk _ | .upd x pk _ | .del x pk => (p.tx x).frames.tail.all fun f => (f pk).isNone
     | _ => true) &&
    (match pstep p e with
     | none => true
     | some (p', _) => nwa p' es)

theorem nwa_ok : ∀ (es : List Ev) (p : PSt), nwa p es = true → NoWriteAcross p es
  | [], _, _ => trivial
  | e :: es, p, h => by
    simp only [nwa, Bool.and_eq_true] at h
    refine ⟨?_, ?_⟩
    · have h1 := h.1
      cases e <;> simp only at h1 ⊢
      all_goals
        intro f hf
        have := List.all_eq_true.mp h1 f hf
        simpa using this
    · have h2 := h.2
      split at h2
      · next hp => rw [hp]; trivial
      · next p' rs hp => rw [hp]; exact nwa_ok es p' h2

/-- `SameKeySameEntry`, to be computed. -/
def sks (ixs : List Index) : PSt → List Ev → Bool
  | _, [] => true
  | p, e :: es =>
    (match e with
     | .upd x pk r => ixs.all fun ix =>
         match p.look x pk with
         | none => true
         | some old => ix.key r != ix.key old ||
             (ix.pred r == ix.pred old && (!ix.pred r || ix.cells r == ix.cells old))
     | _ => true) &&
    (match pstep p e with
     | none => true
     | some (p', _) => sks ixs p' es)

theorem sks_ok (ixs : List Index) : ∀ (es : List Ev) (p : PSt), sks ixs p es = true →
    SameKeySameEntry ixs p es
  | [], _, _ => trivial
  | e :: es, p, h => by
    simp only [sks, Bool.and_eq_true] at h
    refine ⟨?_, ?_⟩
    · have h1 := h.1
      cases e <;> simp only at h1 ⊢
      intro ix hix old hold hk
      have h3 := List.all_eq_true.mp h1 ix hix
      rw [hold] at h3
      simp only [hk, bne_self_eq_false, Bool.false_or, Bool.and_eq_true, beq_iff_eq,
        Bool.or_eq_true, Bool.not_eq_true'] at h3
      refine ⟨h3.1, ?_⟩
      intro hp
      rcases h3.2 with h4 | h4
      · rw [hp] at h4; cases h4
      · exact h4
    · have h2 := h.2
      split at h2
      · next hp => rw [hp]; trivial
      · next p' rs hp => rw [hp]; exact sks_ok ixs es p' h2

/-- The case for `C78_partial`, with an index that has an INCLUDE column and a partial one. -/
theorem C78_partial_case : ∃ p log, prun (pinit base0) history = some (p, log) ∧
    NoReleasedInside (fun _ => []) history ∧ NoWriteAcross (pinit base0) history ∧
    SameKeySameEntry [ixA, ixInc, ixPart] (pinit base0) history ∧
    wanted ixPart (p.base 1) [7] = some [val 7] := by
  refine ⟨((prun (pinit base0) history).get (by decide +kernel)).1,
    ((prun (pinit base0) history).get (by decide +kernel)).2, ?_, history_tidy,
    nwa_ok _ _ (by decide +kernel), sks_ok _ _ _ (by decide +kernel), ?_⟩
  · exact (Option.some_get (by decide +kernel)).symm
  · decide +kernel

/-- The case for `C78_plain_partial`: the same history, index on the first column. -/
theorem C78_plain_case : (prun (pinit base0) history).isSome = true ∧
    NoWriteAcross (pinit base0) history ∧ Plain ixA ∧ (∀ pk r, base0 pk = some r → Exact r) ∧
    ∀ e ∈ history, ExactEv e := by
  have hx : ∀ a b, Exact [val a, val b] := by
    intro a b i
    match i with
    | 0 => rfl
    | 1 => rfl
    | _ + 2 => rfl
  refine ⟨history_runs, nwa_ok _ _ (by decide +kernel), ⟨rfl, fun _ => rfl⟩, ?_, ?_⟩
  · intro pk r hr
    unfold base0 at hr
    split at hr
    · cases hr; exact hx _ _
    · cases hr; exact hx _ _
    · cases hr
  · intro e he
    simp only [history, List.mem_cons, List.not_mem_nil, or_false] at he
    rcases he with rfl | rfl | rfl | rfl | rfl | rfl | rfl | rfl | rfl | rfl | rfl | rfl | rfl | rfl |
      rfl | rfl
    all_goals first | exact hx _ _ | exact trivial

/-! ### What goes wrong otherwise -/

/-- INSERT; SAVEPOINT a; INSERT; SAVEPOINT b; INSERT; RELEASE b; ROLLBACK TO a; COMMIT. -/
def releasedInside : List Ev :=
  [.ins 10 1 [val 1], .sub 10, .ins 10 2 [val 2], .sub 10, .ins 10 3 [val 3], .release 10,
   .rollback 10, .commit 10]

/-- The first row is committed on the primary, and is not there after replay: the savepoint item of
`b` is still on the stack of the replaying process, its parent is not the one asked for, and
everything is taken back. -/
theorem C77_violated : ¬ C77 := by
  intro h
  have h1 := h [] (fun _ => none) releasedInside
    ((prun (pinit fun _ => none) releasedInside).get (by decide +kernel)).1
    ((prun (pinit fun _ => none) releasedInside).get (by decide +kernel)).2
    (Option.some_get (by decide +kernel)).symm 1
  exact absurd h1 (by decide +kernel)

/-- What is seen of row 1: committed on the primary, absent after replay. -/
theorem C77_lost :
    (prun (pinit fun _ => none) releasedInside).map (fun q => (q.1.base 1,
      seen (replay [] (init [] fun _ => none) q.2).done
        ((replay [] (init [] fun _ => none) q.2).rows 1 .prim))) = some (some [val 1], none) := by
  decide +kernel

theorem C78_violates {ixs : List Index} {base : Nat → Option Row} {es : List Ev} {i : Nat}
    {ix : Index} {pk : Nat} {k : List Nat} (hs : (prun (pinit base) es).isSome = true)
    (hi : ixs[i]? = some ix)
    (hne : seen (replay ixs (init ixs base) ((prun (pinit base) es).get hs).2).done
      ((replay ixs (init ixs base) ((prun (pinit base) es).get hs).2).rows pk (.sec i k)) ≠
      wanted ix (((prun (pinit base) es).get hs).1.base pk) k) : ¬ C78 := by
  intro h
  exact hne (h ixs base es _ _ (Option.some_get hs).symm i ix hi pk k)

/-- INSERT; SAVEPOINT; UPDATE of the key; ROLLBACK TO; COMMIT: the entry of the row is lost.  The
update took the insertion of the entry back instead of deleting the entry, and the rollback does not
bring it back. -/
def acrossSavepoint : List Ev :=
  [.ins 10 1 [val 5, val 1], .sub 10, .upd 10 1 [val 6, val 1], .rollback 10, .commit 10]

theorem C78_violated_across : NoReleasedInside (fun _ => []) acrossSavepoint ∧
    SameKeySameEntry [ixA] (pinit fun _ => none) acrossSavepoint ∧ ¬ C78 :=
  ⟨by simp [acrossSavepoint, NoReleasedInside, upd], sks_ok _ _ _ (by decide +kernel),
    C78_violates (ixs := [ixA]) (base := fun _ => none) (es := acrossSavepoint) (i := 0) (ix := ixA)
      (pk := 1) (k := [5]) (by decide +kernel) rfl (by decide +kernel)⟩

/-- UPDATE of a column that only the predicate of a partial index looks at: the entry the row now
calls for is not made. -/
def intoPartial : List Ev := [.upd 10 2 [val 6, val 1], .commit 10]

theorem C78_violated_predicate : NoReleasedInside (fun _ => []) intoPartial ∧
    NoWriteAcross (pinit base0) intoPartial ∧ ¬ C78 :=
  ⟨by simp [intoPartial, NoReleasedInside], nwa_ok _ _ (by decide +kernel),
    C78_violates (ixs := [ixPart]) (base := base0) (es := intoPartial) (i := 0) (ix := ixPart)
      (pk := 2) (k := [6]) (by decide +kernel) rfl (by decide +kernel)⟩

/-- UPDATE of an INCLUDE column: the entry keeps the old value. -/
def included : List Ev := [.upd 10 1 [val 5, val 2], .commit 10]

theorem C78_violated_include : NoReleasedInside (fun _ => []) included ∧
    NoWriteAcross (pinit base0) included ∧ ¬ C78 :=
  ⟨by simp [included, NoReleasedInside], nwa_ok _ _ (by decide +kernel),
    C78_violates (ixs := [ixInc]) (base := base0) (es := included) (i := 0) (ix := ixInc)
      (pk := 1) (k := [5]) (by decide +kernel) rfl (by decide +kernel)⟩

/-- UPDATE of the key to a value that compares equal but is not the same: the entry keeps the old
value. -/
def equalValue : List Ev := [.upd 10 1 [⟨50, 5⟩, val 1], .commit 10]

theorem C78_violated_equal : NoReleasedInside (fun _ => []) equalValue ∧
    NoWriteAcross (pinit base0) equalValue ∧ ¬ C78 :=
  ⟨by simp [equalValue, NoReleasedInside], nwa_ok _ _ (by decide +kernel),
    C78_violates (ixs := [ixA]) (base := base0) (es := equalValue) (i := 0) (ix := ixA)
      (pk := 1) (k := [5]) (by decide +kernel) rfl (by decide +kernel)⟩

end Verif.Replay
