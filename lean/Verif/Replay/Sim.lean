/-
The relation between the primary and the replaying node, and that every step keeps it.
-/
import Verif.Replay.Chain

namespace Verif.Replay

/-- Rollback of a whole row. -/
def cutS (x n : Nat) (st : RowSt) : RowSt := fun s => cut x n (st s)

/-- The committed part of a row. -/
def settledS (done : Nat → Bool) (st : RowSt) : RowSt := fun s => settled done (st s)

/-- The levels of transaction `x` agree with the row: at each level, if it has not written to the
row then rolling it back changes nothing, if it has then the row has that value; and what is left
after rolling it back agrees with the levels outside.  `P` is kept at every level. -/
def Agree (P : RowSt → Prop) (x pk : Nat) (outer : Frame) :
    RowSt → List (Nat × Frame) → List (Nat × Nat) → Prop
  | st, [], [] => (outer pk = none → cutS x 0 st = st) ∧
      (∀ v, outer pk = some v → top (st .prim) = v)
  | st, (q, f) :: ss, (q', n) :: os =>
    q' = q ∧ (f pk = none → cutS x n st = st) ∧ (∀ v, f pk = some v → top (st .prim) = v) ∧
      P (cutS x n st) ∧ Agree P x pk outer (cutS x n st) ss os
  | _, _, _ => False

/-- The stamps of the levels go down. -/
def Desc : Nat → List (Nat × Nat) → Prop
  | _, [] => True
  | b, (_, n) :: os => n ≤ b ∧ Desc n os

/-- The savepoint items of the replaying node are those of the open levels, and possibly others left
from released ones above a level so marked. -/
def Linked : List Bool → List (Nat × Nat) → List (Nat × Nat) → Prop
  | [], [], _ => True
  | b :: bs, o :: os, sps =>
    ∃ ex rest, sps = ex ++ o :: rest ∧ (b = false → ex = []) ∧ Linked bs os rest
  | _, _, _ => False

/-- The relation. -/
structure Inv (P : RowSt → Prop) (p : PSt) (st : St) (m : Nat → List Bool) : Prop where
  doneFin : ∀ x, p.fin x = false → st.done x = false
  good : ∀ pk s, Good st.done (p.owner pk) (st.rows pk s)
  stamp : ∀ pk s, ∀ v ∈ st.rows pk s, v.stamp < st.next
  cur : ∀ pk, P (st.rows pk)
  base : ∀ pk, P (settledS st.done (st.rows pk)) ∧ top (settled st.done (st.rows pk .prim)) = p.base pk
  own : ∀ x, p.fin x = false → ∀ pk, (p.tx x).wrote pk ≠ none → p.owner pk = some x
  ownFin : ∀ pk x, p.owner pk = some x → p.fin x = false
  lev : ∀ x, p.fin x = false → ∃ os, Desc st.next os ∧ Linked (m x) os (st.sps x) ∧
    ∀ pk, Agree P x pk (p.tx x).outer (st.rows pk) (p.tx x).subs os

/-! ### Levels -/

theorem wrote_none {t : Tx} {pk : Nat} : t.wrote pk = none ↔
    (∀ q ∈ t.subs, q.2 pk = none) ∧ t.outer pk = none := by
  unfold Tx.wrote Tx.frames
  rw [List.findSome?_eq_none_iff]
  constructor
  · intro h
    exact ⟨fun q hq => h q.2 (List.mem_append_left _ (List.mem_map_of_mem hq)),
      h _ (List.mem_append_right _ List.mem_cons_self)⟩
  · rintro ⟨h1, h2⟩ f hf
    rcases List.mem_append.mp hf with hf | hf
    · obtain ⟨q, hq, rfl⟩ := List.mem_map.mp hf
      exact h1 q hq
    · rw [List.mem_singleton.mp hf]
      exact h2

theorem cutS_absent {x n : Nat} {st : RowSt} (h : ∀ s, ∀ v ∈ st s, v.xid ≠ x) : cutS x n st = st := by
  funext s
  exact cut_absent (h s)

theorem cutS_cutS {x n m : Nat} (h : m ≤ n) (st : RowSt) : cutS x m (cutS x n st) = cutS x m st := by
  funext s
  exact cut_cut h _

/-- A transaction that has nothing written to the row, and no version in it, agrees with it. -/
theorem Agree.idle {P : RowSt → Prop} {x pk : Nat} {outer : Frame} {st0 st : RowSt} (hP : P st)
    (hab : ∀ s, ∀ v ∈ st s, v.xid ≠ x) :
    ∀ (ss : List (Nat × Frame)) (os : List (Nat × Nat)) (st0 : RowSt),
      Agree P x pk outer st0 ss os → (∀ q ∈ ss, q.2 pk = none) → outer pk = none →
      Agree P x pk outer st ss os
  | [], [], _, _, _, h2 => by
    refine ⟨fun _ => cutS_absent hab, ?_⟩
    intro v hv
    rw [h2] at hv
    cases hv
  | (q, f) :: ss, (q', n) :: os, st0, h, h1, h2 => by
    obtain ⟨ha, -, -, -, hb⟩ := h
    have hf := h1 _ List.mem_cons_self
    refine ⟨ha, fun _ => cutS_absent hab, ?_, ?_, ?_⟩
    · intro v hv
      simp only at hf
      rw [hf] at hv
      cases hv
    · rw [cutS_absent hab]; exact hP
    · rw [cutS_absent hab]
      exact Agree.idle (st0 := st0) hP hab ss os _ hb
        (fun q hq => h1 q (List.mem_cons_of_mem _ hq)) h2
  | [], _ :: _, _, h, _, _ => h.elim
  | _ :: _, [], _, h, _, _ => h.elim

theorem Agree.none {P : RowSt → Prop} {x pk : Nat} {outer : Frame} :
    ∀ (ss : List (Nat × Frame)) (os : List (Nat × Nat)) (st : RowSt),
      Agree P x pk outer st ss os → (∀ q ∈ ss, q.2 pk = none) → outer pk = none → cutS x 0 st = st
  | [], [], _, h, _, h2 => h.1 h2
  | (q, f) :: ss, (q', n) :: os, st, h, h1, h2 => by
    obtain ⟨-, ha, -, -, hb⟩ := h
    have hc := Agree.none ss os _ hb (fun q hq => h1 q (List.mem_cons_of_mem _ hq)) h2
    rw [ha (h1 _ List.mem_cons_self)] at hc
    exact hc
  | [], _ :: _, _, h, _, _ => h.elim
  | _ :: _, [], _, h, _, _ => h.elim

theorem Agree.some {P : RowSt → Prop} {x pk : Nat} {outer : Frame} {v : Option Row} :
    ∀ (ss : List (Nat × Frame)) (os : List (Nat × Nat)) (st : RowSt),
      Agree P x pk outer st ss os →
      (ss.map (·.2) ++ [outer]).findSome? (· pk) = some v → top (st .prim) = v
  | [], [], _, h, h1 => by
    simp at h1
    exact h.2 v h1
  | (q, f) :: ss, (q', n) :: os, st, h, h1 => by
    obtain ⟨-, ha, hb, -, hc⟩ := h
    cases hf : f pk with
    | none =>
      rw [List.map_cons, List.cons_append, List.findSome?_cons] at h1
      simp only [hf] at h1
      have := Agree.some ss os _ hc h1
      rw [ha hf] at this
      exact this
    | some w =>
      rw [List.map_cons, List.cons_append, List.findSome?_cons] at h1
      simp only [hf, Option.some.injEq] at h1
      rw [← h1]
      exact hb w hf
  | [], _ :: _, _, h, _ => h.elim
  | _ :: _, [], _, h, _ => h.elim

theorem tops {P p st m} (h : Inv P p st m) {x pk : Nat} (hx : p.fin x = false)
    (ho : p.owner pk = none ∨ p.owner pk = some x) :
    top (st.rows pk .prim) = p.look x pk := by
  obtain ⟨os, -, -, ha⟩ := h.lev x hx
  unfold PSt.look
  cases hw : (p.tx x).wrote pk with
  | some v => exact Agree.some _ _ _ (ha pk) hw
  | none =>
    have hn := wrote_none.mp hw
    have hc := congrFun (Agree.none _ _ _ (ha pk) hn.1 hn.2) .prim
    have hg := h.good pk .prim
    rw [Option.getD_none, ← (h.base pk).2]
    rcases ho with ho | ho
    · rw [ho] at hg
      rw [hg.free]
    · rw [ho] at hg
      rw [← hg.cut_holder (h.doneFin x hx)]
      exact congrArg top hc.symm

/-! ### Writes -/

/-- What a write to a row may do. -/
structure Wrote (P : RowSt → Prop) (done : Nat → Bool) (x n b : Nat) (v : Option Row)
    (st st' : RowSt) : Prop where
  top' : top (st' .prim) = v
  p' : P st'
  cut' : cutS x b st' = cutS x b st
  settled' : settledS done st' = settledS done st
  good' : ∀ s, Good done (some x) (st s) → Good done (some x) (st' s)
  stamp' : ∀ s, (∀ v ∈ st s, v.stamp < n) → ∀ v ∈ st' s, v.stamp < n + 1

/-- Place in the undo stack of the innermost level. -/
def inner : List (Nat × Nat) → Nat
  | [] => 0
  | (_, n) :: _ => n

theorem Agree.write {P : RowSt → Prop} {done : Nat → Bool} {x pk n : Nat} {v : Option Row}
    {st st' : RowSt} {t : Tx} {os : List (Nat × Nat)}
    (h : Agree P x pk t.outer st t.subs os) (hw : Wrote P done x n (inner os) v st st') :
    Agree P x pk (t.write pk v).outer st' (t.write pk v).subs os := by
  cases hs : t.subs with
  | nil =>
    rw [hs] at h
    cases os with
    | nil =>
      simp only [Tx.write, hs]
      refine ⟨?_, ?_⟩
      · intro h1; simp at h1
      · intro w h1; simp at h1; rw [hw.top', h1]
    | cons o os => exact h.elim
  | cons q ss =>
    rw [hs] at h
    cases os with
    | nil => exact h.elim
    | cons o os =>
      obtain ⟨q, f⟩ := q
      obtain ⟨q', b⟩ := o
      simp only [Tx.write, hs]
      obtain ⟨h1, -, -, h2, h3⟩ := h
      have hc : cutS x b st' = cutS x b st := hw.cut'
      refine ⟨h1, ?_, ?_, ?_, ?_⟩
      · intro h4; simp at h4
      · intro w h4; simp at h4; rw [hw.top', h4]
      · rw [hc]; exact h2
      · rw [hc]; exact h3

theorem Agree.write_other {P : RowSt → Prop} {x pk pk' : Nat} {v : Option Row}
    {st : RowSt} {t : Tx} {os : List (Nat × Nat)} (hne : pk ≠ pk')
    (h : Agree P x pk t.outer st t.subs os) :
    Agree P x pk (t.write pk' v).outer st (t.write pk' v).subs os := by
  cases hs : t.subs with
  | nil =>
    rw [hs] at h
    cases os with
    | nil =>
      simp only [Tx.write, hs]
      refine ⟨?_, ?_⟩
      · intro h1; simp only [if_neg hne] at h1; exact h.1 h1
      · intro w h1; simp only [if_neg hne] at h1; exact h.2 w h1
    | cons o os => exact h.elim
  | cons q ss =>
    rw [hs] at h
    cases os with
    | nil => exact h.elim
    | cons o os =>
      obtain ⟨q, f⟩ := q
      obtain ⟨q', b⟩ := o
      simp only [Tx.write, hs]
      obtain ⟨h1, h2, h3, h4, h5⟩ := h
      refine ⟨h1, ?_, ?_, h4, h5⟩
      · intro h6; simp only [if_neg hne] at h6; exact h2 h6
      · intro w h6; simp only [if_neg hne] at h6; exact h3 w h6

theorem wrote_write_other {t : Tx} {pk pk' : Nat} {v : Option Row} (hne : pk ≠ pk') :
    (t.write pk' v).wrote pk = t.wrote pk := by
  unfold Tx.write
  cases hs : t.subs with
  | nil => simp [Tx.wrote, Tx.frames, hs, hne]
  | cons q ss => simp [Tx.wrote, Tx.frames, hs, hne, List.findSome?_cons]

theorem Desc.mono {b b' : Nat} (hb : b ≤ b') : ∀ {os : List (Nat × Nat)}, Desc b os → Desc b' os
  | [], _ => trivial
  | (_, _) :: _, h => ⟨Nat.le_trans h.1 hb, h.2⟩

theorem inner_le {b : Nat} {os : List (Nat × Nat)} (h : Desc b os) : inner os ≤ b := by
  cases os with
  | nil => exact Nat.zero_le _
  | cons o os => exact h.1

/-- A write keeps the relation. -/
theorem Inv.write {P p st m} (h : Inv P p st m) {x pk : Nat} (hx : p.fin x = false)
    (ho : p.owner pk = none ∨ p.owner pk = some x) (v : Option Row) (row : RowSt)
    (hw : ∀ os, Desc st.next os → Agree P x pk (p.tx x).outer (st.rows pk) (p.tx x).subs os →
      Wrote P st.done x st.next (inner os) v (st.rows pk) row) :
    Inv P (p.write x pk v) { st with rows := upd st.rows pk row, next := st.next + 1 } m := by
  have hd := h.doneFin x hx
  obtain ⟨os, hos1, hos2, hos3⟩ := h.lev x hx
  have hw1 := hw os hos1 (hos3 pk)
  have hgx : ∀ s, Good st.done (some x) (row s) := by
    intro s
    apply hw1.good'
    have := h.good pk s
    rcases ho with ho | ho
    · rw [ho] at this; exact this.mono
    · rw [ho] at this; exact this
  refine ⟨h.doneFin, ?_, ?_, ?_, ?_, ?_, ?_, ?_⟩
  · intro pk' s
    show Good st.done (upd p.owner pk (some x) pk') (upd st.rows pk row pk' s)
    unfold upd
    by_cases he : pk' = pk
    · simp only [if_pos he]
      exact hgx s
    · simp only [if_neg he]
      exact h.good pk' s
  · intro pk' s
    show ∀ v ∈ upd st.rows pk row pk' s, v.stamp < st.next + 1
    unfold upd
    by_cases he : pk' = pk
    · simp only [if_pos he]
      exact hw1.stamp' s (h.stamp pk s)
    · simp only [if_neg he]
      intro w hw
      exact Nat.lt_succ_of_lt (h.stamp pk' s w hw)
  · intro pk'
    show P (upd st.rows pk row pk')
    unfold upd
    by_cases he : pk' = pk
    · simp only [if_pos he]; exact hw1.p'
    · simp only [if_neg he]; exact h.cur pk'
  · intro pk'
    show P (settledS st.done (upd st.rows pk row pk')) ∧
      top (settled st.done (upd st.rows pk row pk' .prim)) = p.base pk'
    unfold upd
    by_cases he : pk' = pk
    · simp only [if_pos he]
      have h1 := h.base pk
      rw [← hw1.settled'] at h1
      have h2 := congrFun hw1.settled' .prim
      unfold settledS at h2
      rw [he]
      exact ⟨h1.1, by rw [h2]; exact h1.2⟩
    · simp only [if_neg he]; exact h.base pk'
  · intro y hy pk' hwr
    show upd p.owner pk (some x) pk' = some y
    change (upd p.tx x ((p.tx x).write pk v) y).wrote pk' ≠ none at hwr
    unfold upd at hwr ⊢
    by_cases he : pk' = pk
    · rw [if_pos he]
      by_cases hyx : y = x
      · rw [hyx]
      · rw [if_neg hyx, he] at hwr
        have := h.own y hy pk hwr
        rcases ho with ho | ho
        · rw [ho] at this; cases this
        · rw [ho] at this; exact this
    · rw [if_neg he]
      by_cases hyx : y = x
      · rw [if_pos hyx, wrote_write_other he] at hwr
        rw [hyx]
        exact h.own x hx pk' hwr
      · rw [if_neg hyx] at hwr
        exact h.own y hy pk' hwr
  · intro pk' y hy
    change upd p.owner pk (some x) pk' = some y at hy
    show p.fin y = false
    unfold upd at hy
    by_cases he : pk' = pk
    · rw [if_pos he] at hy; cases hy; exact hx
    · rw [if_neg he] at hy; exact h.ownFin pk' y hy
  · intro y hy
    by_cases hyx : y = x
    · subst hyx
      refine ⟨os, hos1.mono (Nat.le_succ _), hos2, ?_⟩
      intro pk'
      show Agree P y pk' (upd p.tx y ((p.tx y).write pk v) y).outer (upd st.rows pk row pk')
        (upd p.tx y ((p.tx y).write pk v) y).subs os
      unfold upd
      simp only [if_true]
      by_cases he : pk' = pk
      · simp only [if_pos he]
        rw [he]
        exact (hos3 pk).write hw1
      · simp only [if_neg he]
        exact (hos3 pk').write_other he
    · obtain ⟨oy, hy1, hy2, hy3⟩ := h.lev y hy
      refine ⟨oy, hy1.mono (Nat.le_succ _), hy2, ?_⟩
      intro pk'
      show Agree P y pk' (upd p.tx x ((p.tx x).write pk v) y).outer (upd st.rows pk row pk')
        (upd p.tx x ((p.tx x).write pk v) y).subs oy
      unfold upd
      simp only [if_neg hyx]
      by_cases he : pk' = pk
      · simp only [if_pos he]
        have hnw : (p.tx y).wrote pk = none := by
          apply Classical.byContradiction
          intro hc
          have := h.own y hy pk hc
          rcases ho with ho | ho
          · rw [ho] at this; cases this
          · rw [ho] at this; cases this; exact hyx rfl
        have hnw := wrote_none.mp hnw
        rw [he]
        refine Agree.idle (st0 := row) hw1.p' ?_ _ _ _ (hy3 pk) hnw.1 hnw.2
        intro s
        refine (hgx s).absent (h.doneFin y hy) ?_
        intro hc
        cases hc
        exact hyx rfl
      · simp only [if_neg he]
        exact hy3 pk'

end Verif.Replay
