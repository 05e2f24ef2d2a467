import Verif.Image.Spec
/-!
# Lemmas about chains
-/

namespace Verif.Image

theorem set_same {α : Type} (f : Nat → α) (x : Nat) (a : α) : set f x a x = a := by simp [set]

theorem set_other {α : Type} (f : Nat → α) {x y : Nat} (a : α) (h : y ≠ x) : set f x a y = f y := by
  simp [set, h]

/-- The newest value with its version number. -/
def look : Chain → Option (Nat × Nat)
  | [] => none
  | v :: _ => v.val.map (fun a => (v.ver, a))

theorem top_look (c : Chain) : top c = (look c).map (·.2) := by
  cases c with
  | nil => rfl
  | cons v c => cases h : v.val <;> simp [top, look, h]

theorem look_none {c : Chain} (h : top c = none) : look c = none := by
  rw [top_look] at h
  cases hl : look c with
  | none => rfl
  | some p => rw [hl] at h; cases h

/-- The version comes from the checkpoint. -/
def img (v : Ver) : Ver := { v with img := true }

theorem look_img (c : Chain) : look (c.map img) = look c := by
  cases c <;> simp [look, img]

theorem drop_append {α : Type} {p : α → Bool} {a b : List α} (h : ∀ v ∈ b, p v = false) :
    (a ++ b).dropWhile p = a.dropWhile p ++ b := by
  induction a with
  | nil =>
    cases b with
    | nil => rfl
    | cons v b => simp [h v (by simp)]
  | cons v a ih =>
    simp only [List.cons_append, List.dropWhile_cons]
    split
    · exact ih
    · rfl

theorem take_append {α : Type} {p : α → Bool} {a b : List α} (ha : ∀ v ∈ a, p v = true)
    (hb : ∀ v ∈ b, p v = false) : (a ++ b).takeWhile p = a := by
  induction a with
  | nil =>
    cases b with
    | nil => rfl
    | cons v b => simp [hb v (by simp)]
  | cons v a ih =>
    simp only [List.cons_append, List.takeWhile_cons, ha v (by simp), if_true]
    rw [ih (fun w hw => ha w (by simp [hw]))]

theorem drop_all {α : Type} {p : α → Bool} {a : List α} (h : ∀ v ∈ a, p v = true) :
    a.dropWhile p = [] := by
  induction a with
  | nil => rfl
  | cons v a ih => simp [h v (by simp), ih (fun w hw => h w (by simp [hw]))]

theorem drop_none {α : Type} {p : α → Bool} {a : List α} (h : ∀ v ∈ a, p v = false) :
    a.dropWhile p = a := by
  cases a with
  | nil => rfl
  | cons v a => simp [h v (by simp)]

theorem drop_mem {α : Type} {p : α → Bool} {a : List α} {v : α} (h : v ∈ a.dropWhile p) : v ∈ a :=
  (List.dropWhile_suffix p).subset h

/-- Versions written by the replay are above those of the checkpoint. -/
def Layered (c : Chain) : Prop := c.Pairwise (fun u w => w.img = false → u.img = false)

theorem Layered.suffix {c d : Chain} (h : Layered c) (hs : d <:+ c) : Layered d :=
  List.Pairwise.sublist hs.sublist h

theorem Layered.drop {c : Chain} (h : Layered c) (p : Ver → Bool) : Layered (c.dropWhile p) :=
  h.suffix (List.dropWhile_suffix p)

theorem Layered.push {c : Chain} (h : Layered c) {v : Ver} (hv : v.img = false) : Layered (v :: c) :=
  List.Pairwise.cons (fun _ _ _ => hv) h

theorem layered_img (c : Chain) : Layered (c.map img) := by
  induction c with
  | nil => exact List.Pairwise.nil
  | cons v c ih =>
    refine List.Pairwise.cons ?_ ih
    intro w hw hf
    obtain ⟨u, _, rfl⟩ := List.mem_map.mp hw
    cases hf

theorem Layered.right {a b : Chain} (h : Layered (a ++ b)) : Layered b :=
  h.suffix (List.suffix_append a b)

theorem Layered.left {a b : Chain} (h : Layered (a ++ b)) : Layered a :=
  List.Pairwise.sublist (List.sublist_append_left a b) h

/-- Taking off first `x`'s versions written by the replay and then those of the checkpoint takes off
all of them. -/
theorem drop_two {x : Nat} {a : Chain} (hx : ∀ v ∈ a, v.xid = x) (h : Layered a) :
    (a.dropWhile (fun u => u.xid == x && !u.img)).dropWhile (fun u => u.xid == x && u.img) = [] := by
  induction a with
  | nil => rfl
  | cons v a ih =>
    have h1 := hx v (by simp)
    have h2 : ∀ w ∈ a, w.xid = x := fun w hw => hx w (by simp [hw])
    cases hv : v.img with
    | false =>
      rw [List.dropWhile_cons_of_pos (by simp [h1, hv])]
      exact ih h2 (List.Pairwise.of_cons h)
    | true =>
      rw [List.dropWhile_cons_of_neg (by simp [hv])]
      refine drop_all ?_
      intro w hw
      rcases List.mem_cons.mp hw with rfl | hw
      · simp [h1, hv]
      · have := List.rel_of_pairwise_cons h hw
        cases hwi : w.img with
        | true => simp [h2 w hw]
        | false => rw [this hwi] at hv; cases hv

/-- What the deletion does: it takes off some of `x`'s versions, and in the end the row is deleted. -/
theorem del_form {r : St} {x n : Nat} {a b : Chain} (ha : ∀ v ∈ a, v.xid = x)
    (hb : ∀ v ∈ b, v.xid ≠ x) (hl : Layered (a ++ b)) :
    ∃ a', del r x n (a ++ b) = a' ++ b ∧ (∀ v ∈ a', v.xid = x) ∧ top (a' ++ b) = none ∧
      Layered (a' ++ b) := by
  induction a with
  | nil =>
    cases b with
    | nil => exact ⟨[], rfl, by simp, rfl, List.Pairwise.nil⟩
    | cons u b =>
      simp only [List.nil_append, del]
      by_cases hu : u.val = none
      · exact ⟨[], by simp [hu], by simp, by simp [top, hu], hl⟩
      · have : u.xid ≠ x := hb u (by simp)
        refine ⟨[⟨x, u.ver, none, r.now, false⟩], by simp [hu, this], by simp, rfl, hl.push rfl⟩
  | cons u a ih =>
    simp only [List.cons_append, del]
    by_cases hu : u.val = none
    · exact ⟨u :: a, by simp [hu], ha, by simp [top, hu], hl⟩
    · rw [if_neg hu]
      split
      · exact ih (fun w hw => ha w (by simp [hw])) (List.Pairwise.of_cons hl)
      · refine ⟨⟨x, u.ver, none, r.now, false⟩ :: u :: a, rfl, ?_, rfl, hl.push rfl⟩
        intro w hw
        rcases List.mem_cons.mp hw with rfl | hw
        · rfl
        · exact ha w hw

/-- What an insertion does. -/
theorem put_form {r : St} {x v n : Nat} {a b : Chain} (ha : ∀ v ∈ a, v.xid = x)
    (hb : ∀ v ∈ b, v.xid ≠ x) (hl : Layered (a ++ b)) :
    ∃ a', put r x v n (a ++ b) = ⟨x, n, some v, r.now, false⟩ :: (a' ++ b) ∧
      (∀ v ∈ a', v.xid = x) ∧ Layered (⟨x, n, some v, r.now, false⟩ :: (a' ++ b)) := by
  have h : (a ++ b).dropWhile (fun u => u.xid == x && decide (n ≤ u.ver)) =
      a.dropWhile (fun u => u.xid == x && decide (n ≤ u.ver)) ++ b :=
    drop_append (fun w hw => by simp [hb w hw])
  refine ⟨a.dropWhile (fun u => u.xid == x && decide (n ≤ u.ver)), ?_,
    fun w hw => ha w (drop_mem hw), ?_⟩
  · exact congrArg (_ :: ·) h
  · rw [← h]
    exact (hl.drop _).push rfl

/-- The conflicts found when the versions not committed are all `x`'s. -/
theorem conflict_own {r : St} {x : Nat} {a b : Chain} (hx : r.done x = false)
    (ha : ∀ v ∈ a, v.xid = x) (hb : ∀ v ∈ b, r.done v.xid = true) :
    conflict r x (a ++ b) = some (a ++ b) := by
  have h : (a ++ b).takeWhile (undone r) = a :=
    take_append (fun v hv => by simp [undone, ha v hv, hx]) (fun v hv => by simp [undone, hb v hv])
  have h2 : a.find? (fun v => v.xid != x) = none := by
    rw [List.find?_eq_none]
    intro v hv
    simp [ha v hv]
  simp only [conflict, h, h2]

/-- The conflicts found in general: what is left is `x`'s own, over the committed versions. -/
theorem conflict_form {r : St} {x : Nat} {a b c : Chain} (hc : conflict r x (a ++ b) = some c)
    (ha : ∀ v ∈ a, r.done v.xid = false) (hb : ∀ v ∈ b, r.done v.xid = true)
    (hl : Layered (a ++ b)) :
    ∃ a', c = a' ++ b ∧ (∀ v ∈ a', v.xid = x) ∧ Layered (a' ++ b) := by
  have h : (a ++ b).takeWhile (undone r) = a :=
    take_append (fun v hv => by simp [undone, ha v hv]) (fun v hv => by simp [undone, hb v hv])
  have hd : (a ++ b).dropWhile (undone r) = b := by
    rw [drop_append (fun v hv => by simp [undone, hb v hv]),
      drop_all (fun v hv => by simp [undone, ha v hv])]
    rfl
  simp only [conflict, h, hd] at hc
  split at hc
  · rename_i hf
    rw [List.find?_eq_none] at hf
    refine ⟨a, (Option.some.inj hc).symm, ?_, hl⟩
    intro v hv
    simpa using hf v hv
  · split at hc
    · cases hc
    · exact ⟨[], (Option.some.inj hc).symm, by simp, hl.right⟩

end Verif.Image
