/-
Facts about the chains of one item.
-/
import Verif.Replay.Spec

namespace Verif.Replay

/-- The chain is a part by the transaction that holds the row (not committed), over committed
versions. -/
def Good (done : Nat → Bool) (o : Option Nat) (c : Chain) : Prop :=
  ∃ a b, c = a ++ b ∧ (∀ v ∈ a, o = some v.xid ∧ done v.xid = false) ∧ (∀ v ∈ b, done v.xid = true)

/-- Drop the versions of transactions that have not committed. -/
def settled (done : Nat → Bool) (c : Chain) : Chain := c.dropWhile fun v => !done v.xid

theorem dropWhile_dropWhile {α : Type} (p q : α → Bool) (h : ∀ a, p a = true → q a = true) :
    ∀ l : List α, (l.dropWhile p).dropWhile q = l.dropWhile q
  | [] => rfl
  | a :: l => by
    by_cases hp : p a = true
    · rw [List.dropWhile_cons_of_pos hp, List.dropWhile_cons_of_pos (h a hp),
        dropWhile_dropWhile p q h l]
    · rw [List.dropWhile_cons_of_neg hp]

theorem dropWhile_eq_self {α : Type} (p : α → Bool) (l : List α) (h : ∀ a ∈ l, p a = false) :
    l.dropWhile p = l := by
  cases l with
  | nil => rfl
  | cons a l =>
    rw [List.dropWhile_cons_of_neg]
    rw [h a List.mem_cons_self]
    simp

theorem dropWhile_suffix' {α : Type} (p : α → Bool) (l : List α) : l.dropWhile p <:+ l :=
  List.dropWhile_suffix p

theorem seen_settled (done : Nat → Bool) (c : Chain) : seen done c = top (settled done c) := by
  induction c with
  | nil => rfl
  | cons v c ih =>
    unfold seen settled at *
    by_cases h : done v.xid = true
    · rw [List.find?_cons_of_pos (by exact h), List.dropWhile_cons_of_neg (by simp [h])]
      rfl
    · rw [List.find?_cons_of_neg (by exact h), List.dropWhile_cons_of_pos (by simpa using h)]
      exact ih

theorem cut_cut {x n m : Nat} (h : m ≤ n) (c : Chain) : cut x m (cut x n c) = cut x m c := by
  unfold cut
  apply dropWhile_dropWhile
  intro v hv
  simp only [Bool.and_eq_true, decide_eq_true_eq] at hv ⊢
  exact ⟨hv.1, by omega⟩

theorem cut_zero (x : Nat) (c : Chain) : cut x 0 c = c.dropWhile fun v => v.xid == x := by
  unfold cut
  congr 1
  funext v
  simp

theorem settled_cut {done : Nat → Bool} {x n : Nat} (hx : done x = false) (c : Chain) :
    settled done (cut x n c) = settled done c := by
  unfold cut settled
  apply dropWhile_dropWhile
  intro v hv
  simp only [Bool.and_eq_true, decide_eq_true_eq, beq_iff_eq] at hv
  rw [hv.1, hx]
  rfl

theorem Good.suffix {done o c c'} (h : Good done o c) (hs : c' <:+ c) : Good done o c' := by
  obtain ⟨a, b, rfl, ha, hb⟩ := h
  induction a with
  | nil => exact ⟨[], c', rfl, by simp, fun v hv => hb v (hs.mem hv)⟩
  | cons w a ih =>
    rw [List.cons_append, List.suffix_cons_iff] at hs
    rcases hs with rfl | hs
    · exact ⟨w :: a, b, rfl, ha, hb⟩
    · exact ih hs (fun v hv => ha v (List.mem_cons_of_mem _ hv))

theorem Good.mono {done x c} (h : Good done none c) : Good done (some x) c := by
  obtain ⟨a, b, rfl, ha, hb⟩ := h
  cases a with
  | nil => exact ⟨[], b, rfl, by simp, hb⟩
  | cons v a => have := (ha v List.mem_cons_self).1; simp at this

theorem Good.push {done x c} (h : Good done (some x) c) (hx : done x = false) (n : Nat)
    (v : Option (List Cell)) : Good done (some x) (⟨x, n, v⟩ :: c) := by
  obtain ⟨a, b, rfl, ha, hb⟩ := h
  refine ⟨⟨x, n, v⟩ :: a, b, rfl, ?_, hb⟩
  intro w hw
  rcases List.mem_cons.mp hw with rfl | hw
  · exact ⟨rfl, hx⟩
  · exact ha w hw

/-- A transaction in progress that does not hold the row has no version in the chain. -/
theorem Good.absent {done o c y} (h : Good done o c) (hy : done y = false) (ho : o ≠ some y) :
    ∀ v ∈ c, v.xid ≠ y := by
  obtain ⟨a, b, rfl, ha, hb⟩ := h
  intro v hv he
  rcases List.mem_append.mp hv with hv | hv
  · have := (ha v hv).1
    rw [he] at this
    exact ho this
  · have := hb v hv
    rw [he, hy] at this
    exact Bool.noConfusion this

theorem cut_absent {x n : Nat} {c : Chain} (h : ∀ v ∈ c, v.xid ≠ x) : cut x n c = c := by
  apply dropWhile_eq_self
  intro v hv
  have := h v hv
  simp [this]

/-- Taking out the holder's versions leaves the committed ones. -/
theorem Good.cut_holder {done x c} (h : Good done (some x) c) (hx : done x = false) :
    cut x 0 c = settled done c := by
  obtain ⟨a, b, rfl, ha, hb⟩ := h
  rw [cut_zero]
  unfold settled
  induction a with
  | nil =>
    rw [List.nil_append, dropWhile_eq_self, dropWhile_eq_self]
    · intro v hv; simp [hb v hv]
    · intro v hv
      have := hb v hv
      by_cases he : v.xid = x
      · rw [he, hx] at this; exact Bool.noConfusion this
      · simp [he]
  | cons v a ih =>
    have hv := ha v List.mem_cons_self
    have hvx : v.xid = x := by have := hv.1; simp at this; exact this.symm
    rw [List.cons_append, List.dropWhile_cons_of_pos (by simp [hvx]),
      List.dropWhile_cons_of_pos (by simp [hv.2])]
    exact ih fun w hw => ha w (List.mem_cons_of_mem _ hw)

theorem Good.free {done c} (h : Good done none c) : settled done c = c := by
  obtain ⟨a, b, rfl, ha, hb⟩ := h
  cases a with
  | nil =>
    apply dropWhile_eq_self
    intro v hv
    simp [hb v hv]
  | cons v a => have := (ha v List.mem_cons_self).1; simp at this

/-- A held row of which the holder has no version on top is as good as free. -/
theorem Good.release {done x c} (h : Good done (some x) c) (hx : done x = false)
    (hc : cut x 0 c = c) : Good done none c := by
  obtain ⟨a, b, rfl, ha, hb⟩ := h
  cases a with
  | nil => exact ⟨[], b, rfl, by simp, hb⟩
  | cons v a =>
    exfalso
    have hv := ha v List.mem_cons_self
    have hvx : v.xid = x := by have := hv.1; simp at this; exact this.symm
    have h2 := congrArg List.length hc
    rw [cut_zero, List.cons_append, List.dropWhile_cons_of_pos (by simp [hvx])] at h2
    have h3 := (List.dropWhile_suffix (fun v : Ver => v.xid == x) (l := a ++ b)).length_le
    rw [List.length_cons] at h2
    omega

/-- After a commit of the holder everything is committed. -/
theorem Good.commit {done x c o} (h : Good done o c) (ho : o = some x) :
    Good (upd done x true) none c := by
  obtain ⟨a, b, rfl, ha, hb⟩ := h
  refine ⟨[], a ++ b, rfl, by simp, ?_⟩
  intro v hv
  rcases List.mem_append.mp hv with hv | hv
  · have h1 := (ha v hv).1
    rw [ho] at h1
    simp at h1
    simp [upd, ← h1]
  · unfold upd; split
    · rfl
    · exact hb v hv

theorem Good.commit_other {done x c o} (h : Good done o c) (ho : o ≠ some x) :
    Good (upd done x true) o c := by
  obtain ⟨a, b, rfl, ha, hb⟩ := h
  refine ⟨a, b, rfl, ?_, ?_⟩
  · intro v hv
    have h1 := ha v hv
    refine ⟨h1.1, ?_⟩
    unfold upd
    rw [if_neg]
    · exact h1.2
    · intro he; rw [he] at h1; exact ho h1.1
  · intro v hv
    unfold upd; split
    · rfl
    · exact hb v hv

/-! ### Entries -/

theorem insEntry_form (x n : Nat) (e : List Cell) (c : Chain) :
    insEntry x n e c = ⟨x, n, some e⟩ :: cut x 0 c := by
  rw [cut_zero]
  induction c with
  | nil => rfl
  | cons v c ih =>
    unfold insEntry
    by_cases h : (v.xid == x) = true
    · rw [if_pos h, ih, List.dropWhile_cons_of_pos (by exact h)]
    · rw [if_neg h, List.dropWhile_cons_of_neg (by exact h)]

theorem delEntry_form (x n : Nat) (c : Chain) :
    ∃ c', c' <:+ c ∧ (delEntry x n c = c' ∨ delEntry x n c = ⟨x, n, none⟩ :: c') ∧
      ∀ done, done x = false → settled done c' = settled done c := by
  induction c with
  | nil => exact ⟨[], List.suffix_refl _, Or.inl rfl, fun _ _ => rfl⟩
  | cons v c ih =>
    unfold delEntry
    split
    · split
      · next h2 =>
        obtain ⟨c', h3, h4, h5⟩ := ih
        refine ⟨c', h3.trans (List.suffix_cons v c), h4, ?_⟩
        intro done hd
        rw [h5 done hd]
        unfold settled
        rw [List.dropWhile_cons_of_pos]
        simp at h2
        simp [h2, hd]
      · exact ⟨v :: c, List.suffix_refl _, Or.inr rfl, fun _ _ => rfl⟩
    · exact ⟨v :: c, List.suffix_refl _, Or.inl rfl, fun _ _ => rfl⟩

theorem top_insEntry (x n : Nat) (e : List Cell) (c : Chain) : top (insEntry x n e c) = some e := by
  rw [insEntry_form]; rfl

theorem top_delEntry (x n : Nat) (c : Chain) : top (delEntry x n c) = none := by
  induction c with
  | nil => rfl
  | cons v c ih =>
    unfold delEntry
    split
    · split
      · exact ih
      · rfl
    · next h =>
      unfold top
      cases hv : v.val with
      | none => exact hv
      | some a => rw [hv] at h; simp at h

theorem Good.ins {done x c} (h : Good done (some x) c) (hx : done x = false) (n : Nat)
    (e : List Cell) : Good done (some x) (insEntry x n e c) := by
  rw [insEntry_form]
  exact (h.suffix (List.dropWhile_suffix _)).push hx n _

theorem Good.del {done x c} (h : Good done (some x) c) (hx : done x = false) (n : Nat) :
    Good done (some x) (delEntry x n c) := by
  obtain ⟨c', h1, h2, -⟩ := delEntry_form x n c
  rcases h2 with h2 | h2
  · rw [h2]; exact h.suffix h1
  · rw [h2]; exact (h.suffix h1).push hx n _

theorem settled_push {done x} (hx : done x = false) (n : Nat) (v : Option (List Cell)) (c : Chain) :
    settled done (⟨x, n, v⟩ :: c) = settled done c := by
  unfold settled
  rw [List.dropWhile_cons_of_pos (by simp [hx])]

theorem settled_ins {done x} (hx : done x = false) (n : Nat) (e : List Cell) (c : Chain) :
    settled done (insEntry x n e c) = settled done c := by
  rw [insEntry_form, settled_push hx, settled_cut hx]

theorem settled_del {done x} (hx : done x = false) (n : Nat) (c : Chain) :
    settled done (delEntry x n c) = settled done c := by
  obtain ⟨c', h1, h2, h3⟩ := delEntry_form x n c
  rcases h2 with h2 | h2
  · rw [h2, h3 done hx]
  · rw [h2, settled_push hx, h3 done hx]

/-- Stamps after an entry was inserted or deleted. -/
theorem stamp_ins {x n : Nat} {e : List Cell} {c : Chain} (h : ∀ v ∈ c, v.stamp < n) :
    ∀ v ∈ insEntry x n e c, v.stamp < n + 1 := by
  rw [insEntry_form]
  intro v hv
  rcases List.mem_cons.mp hv with rfl | hv
  · exact Nat.lt_succ_self _
  · have := h v ((List.dropWhile_suffix _).mem hv)
    omega

theorem stamp_del {x n : Nat} {c : Chain} (h : ∀ v ∈ c, v.stamp < n) :
    ∀ v ∈ delEntry x n c, v.stamp < n + 1 := by
  obtain ⟨c', h1, h2, -⟩ := delEntry_form x n c
  have h3 : ∀ v ∈ c', v.stamp < n + 1 := fun v hv => by have := h v (h1.mem hv); omega
  rcases h2 with h2 | h2
  · rw [h2]; exact h3
  · rw [h2]
    intro v hv
    rcases List.mem_cons.mp hv with rfl | hv
    · exact Nat.lt_succ_self _
    · exact h3 v hv

/-- Inserting an entry does not touch what would be left after a rollback to `m`, if the transaction
has nothing left of its own at that point. -/
theorem cut_ins {x n m : Nat} (hm : m ≤ n) (e : List Cell) {c : Chain}
    (h : cut x 0 (cut x m c) = cut x m c) : cut x m (insEntry x n e c) = cut x m c := by
  rw [insEntry_form]
  have h1 : cut x m (⟨x, n, some e⟩ :: cut x 0 c) = cut x m (cut x 0 c) := by
    unfold cut
    rw [List.dropWhile_cons_of_pos (by simp [hm])]
  rw [h1]
  rw [cut_cut (Nat.zero_le m)] at h
  rw [h, cut_cut (Nat.le_refl m)]

theorem cut_del {x n m : Nat} (hm : m ≤ n) {c : Chain}
    (h : cut x 0 (cut x m c) = cut x m c) : cut x m (delEntry x n c) = cut x m c := by
  induction c with
  | nil => rfl
  | cons v c ih =>
    unfold delEntry
    split
    · split
      · next h2 =>
        simp at h2
        by_cases h3 : m ≤ v.stamp
        · have h4 : cut x m (v :: c) = cut x m c := by
            unfold cut
            rw [List.dropWhile_cons_of_pos (by simp [h2, h3])]
          rw [h4] at h ⊢
          exact ih h
        · exfalso
          have h4 : cut x m (v :: c) = v :: c := by
            unfold cut
            rw [List.dropWhile_cons_of_neg (by simp [h3])]
          rw [h4, cut_zero, List.dropWhile_cons_of_pos (by simp [h2])] at h
          have h5 := congrArg List.length h
          have h6 := (List.dropWhile_suffix (fun v : Ver => v.xid == x) (l := c)).length_le
          rw [List.length_cons] at h5
          omega
      · have h1 : cut x m (⟨x, n, none⟩ :: v :: c) = cut x m (v :: c) := by
          unfold cut
          rw [List.dropWhile_cons_of_pos (by simp [hm])]
        rw [h1]
    · rfl

end Verif.Replay
