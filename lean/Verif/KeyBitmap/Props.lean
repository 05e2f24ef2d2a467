import Verif.KeyBitmap.Fixed
import Verif.KeyBitmap.Spec

/-!
# C26 and C27 for both modes of the key bitmap
-/

namespace Verif.KeyBitmap

/-- The bitmaps of a program, by name. -/
abbrev Env := Nat → Bm

/-- Replace one bitmap. -/
def Env.put (s : Env) (a : Nat) (bm : Bm) : Env := fun c => if c = a then bm else s c

/-- One call in 64-bit mode; the functions of key_bitmap.c:248-651.  Simplification:
each bitmap is a value of its own, so a call with the same bitmap twice reads the
second argument before the first is changed. -/
def call (s : Env) : Op Nat → Env × Res Nat
  | .insert a k => (s.put a (insert (s a) k), .done)
  | .emit a k => (s.put a (emit (s a) k).1, .bool (emit (s a) k).2)
  | .union a b => (s.put a (union (s a) (s b)), .done)
  | .intersect a b => (s.put a (intersect (s a) (s b)), .done)
  | .test a k => (s, .bool (test (s a) k))
  | .isEmpty a => (s, .bool (isEmpty (s a)))
  | .range a low high =>
    (s.put a (rangeIsValid (s a) low high).1,
      match (rangeIsValid (s a) low high).2 with
      | none => .crash
      | some r => .bool r)
  | .next a prev =>
    (s.put a (getNext (s a) prev).1,
      match (getNext (s a) prev).2 with
      | none => .crash
      | some r => .key r)

/-- The bitmaps after a program, all created empty (key_bitmap.c:127-154). -/
def run (ops : List (Op Nat)) : Env := ops.foldl (fun s o => (call s o).1) (fun _ => create)

/-- The bitmaps of a program in fixed-key mode. -/
abbrev EnvF := Nat → Fm

/-- Replace one bitmap. -/
def EnvF.put (s : EnvF) (a : Nat) (bm : Fm) : EnvF := fun c => if c = a then bm else s c

/-- One call in fixed-key mode; key_bitmap.c:204-246, 309-473, 675-709.
Simplification as for `call`. -/
def callF (s : EnvF) : Op (List Nat) → EnvF × Res (List Nat)
  | .insert a k => (s.put a (insertF (s a) k), .done)
  | .emit a k => (s.put a (emitF (s a) k).1, .bool (emitF (s a) k).2)
  | .union a b => (s.put a (unionF (s a) (s b)), .done)
  | .intersect a b => (s.put a (intersectF (s a) (s b)), .done)
  | .test a k => (s, .bool (testF (s a) k))
  | .isEmpty a => (s, .bool (isEmptyF (s a)))
  | .range a low high =>
    (s.put a (rangeIsValidF (s a) low high).1,
      match (rangeIsValidF (s a) low high).2 with
      | none => .crash
      | some r => .bool r)
  | .next a prev =>
    (s.put a (getNextF (s a) prev).1,
      match (getNextF (s a) prev).2 with
      | none => .crash
      | some r => .key r)

/-- The bitmaps after a program (key_bitmap.c:156-176). -/
def runF (ops : List (Op (List Nat))) : EnvF :=
  ops.foldl (fun s o => (callF s o).1) (fun _ => createF)

/-- A `uint64`. -/
def U64 (v : Nat) : Prop := v < 18446744073709551616

/-! ## Refinement -/

/-- The bitmaps hold the sets. -/
structure Rep (s : Env) (S : Nat → Nat → Prop) : Prop where
  inv : ∀ a, BInv (s a)
  mem : ∀ a v, hasT (s a).tree v = true ↔ S a v

theorem rep_put {s : Env} {S S' : Nat → Nat → Prop} (h : Rep s S) {a : Nat} {bm : Bm}
    (hb : BInv bm) (hm : ∀ v, hasT bm.tree v = true ↔ S' a v)
    (ho : ∀ c, c ≠ a → ∀ v, S c v ↔ S' c v) : Rep (s.put a bm) S' where
  inv c := by
    unfold Env.put; split
    · exact hb
    · exact h.inv c
  mem c v := by
    unfold Env.put; split
    · rename_i e; rw [e]; exact hm v
    · rename_i e; rw [h.mem]; exact ho c e v

theorem call_rep {s : Env} {S : Nat → Nat → Prop} (h : Rep s S) {o : Op Nat} (hv : o.Valid U64) :
    Rep (call s o).1 (change S o) ∧ Right id U64 S o (call s o).2 := by
  cases o with
  | insert a k =>
    obtain ⟨h1, h2⟩ := insert_spec (h.inv a) (v := k) hv
    refine ⟨rep_put h h1 ?_ ?_, trivial⟩
    · intro v; rw [h2]; simp [change, h.mem]
    · intro c hc v; simp [change, hc]
  | emit a k =>
    obtain ⟨h1, h2, h3⟩ := emit_spec (h.inv a) (v := k) hv
    refine ⟨rep_put h h1 ?_ ?_, ?_⟩
    · intro v; rw [h2]; simp [change, h.mem]
    · intro c hc v; simp [change, hc]
    · show (emit (s a) k).2 = true ↔ ¬ S a k
      rw [h3, ← h.mem]; simp
  | union a b =>
    obtain ⟨h1, h2⟩ := union_spec (h.inv a) (h.inv b)
    refine ⟨rep_put h h1 ?_ ?_, trivial⟩
    · intro v; rw [h2]; simp [change, h.mem]
    · intro c hc v; simp [change, hc]
  | intersect a b =>
    obtain ⟨h1, h2⟩ := intersect_spec (h.inv a) (h.inv b)
    refine ⟨rep_put h h1 ?_ ?_, trivial⟩
    · intro v; rw [h2]; simp [change, h.mem]
    · intro c hc v; simp [change, hc]
  | test a k =>
    refine ⟨h, ?_⟩
    show test (s a) k = true ↔ S a k
    rw [test_eq]; exact h.mem a k
  | isEmpty a =>
    refine ⟨h, ?_⟩
    show isEmpty (s a) = true ↔ ∀ k, U64 k → ¬ S a k
    rw [isEmpty_spec (h.inv a)]
    constructor
    · intro hx k hk; rw [← h.mem, hx k hk]; simp
    · intro hx k hk
      cases hb : hasT (s a).tree k with
      | false => rfl
      | true => exact absurd ((h.mem a k).1 hb) (hx k hk)
  | range a low high =>
    obtain ⟨h1, h2, r, h3, h4⟩ := range_spec (h.inv a) (low := low) (high := high) hv.1
    refine ⟨rep_put h h1 ?_ ?_, ?_⟩
    · intro v; rw [h2]; exact h.mem a v
    · intro c hc v; exact Iff.rfl
    · simp only [call, h3]
      show r = true ↔ ∃ k, S a k ∧ low ≤ k ∧ k < high
      rw [h4]; simp only [h.mem]
  | next a prev =>
    obtain ⟨h1, h2, r, h3, h4, h5⟩ := next_spec (h.inv a) (prev := prev) hv
    refine ⟨rep_put h h1 ?_ ?_, ?_⟩
    · intro v; rw [h2]; exact h.mem a v
    · intro c hc v; exact Iff.rfl
    · simp only [call, h3]
      cases r with
      | none =>
        intro k hk
        exact h4 rfl k ((h.mem a k).2 hk)
      | some x =>
        obtain ⟨i1, i2, i3⟩ := h5 x rfl
        exact ⟨(h.mem a x).1 i1, i2, fun k hk hp => i3 k ((h.mem a k).2 hk) hp⟩

theorem run_rep (ops : List (Op Nat)) (hv : ∀ o ∈ ops, o.Valid U64) :
    Rep (run ops) (sets ops) := by
  have : ∀ (ops : List (Op Nat)) (s : Env) (S : Nat → Nat → Prop), Rep s S →
      (∀ o ∈ ops, o.Valid U64) →
      Rep (ops.foldl (fun s o => (call s o).1) s) (ops.foldl change S) := by
    intro ops
    induction ops with
    | nil => intro s S h _; exact h
    | cons o ops ih =>
      intro s S h hv
      exact ih _ _ (call_rep h (hv o (List.mem_cons_self ..))).1
        (fun o ho => hv o (List.mem_cons_of_mem _ ho))
  exact this ops _ _ ⟨fun _ => create_inv, by intro a v; simp [create, hasT, find]⟩ hv

/-- The bitmaps hold the sets, fixed-key mode. -/
structure RepF (s : EnvF) (S : Nat → List Nat → Prop) : Prop where
  inv : ∀ a, FInv (s a)
  mem : ∀ a v, hasF (s a).tree v = true ↔ S a v

theorem repF_put {s : EnvF} {S S' : Nat → List Nat → Prop} (h : RepF s S) {a : Nat} {bm : Fm}
    (hb : FInv bm) (hm : ∀ v, hasF bm.tree v = true ↔ S' a v)
    (ho : ∀ c, c ≠ a → ∀ v, S c v ↔ S' c v) : RepF (s.put a bm) S' where
  inv c := by
    unfold EnvF.put; split
    · exact hb
    · exact h.inv c
  mem c v := by
    unfold EnvF.put; split
    · rename_i e; rw [e]; exact hm v
    · rename_i e; rw [h.mem]; exact ho c e v

theorem callF_rep {s : EnvF} {S : Nat → List Nat → Prop} (h : RepF s S) {o : Op (List Nat)}
    (hv : o.Valid IsKey) :
    RepF (callF s o).1 (change S o) ∧ Right value IsKey S o (callF s o).2 := by
  cases o with
  | insert a k =>
    obtain ⟨h1, h2⟩ := insertF_spec (h.inv a) (k := k) hv
    refine ⟨repF_put h h1 ?_ ?_, trivial⟩
    · intro v; rw [h2]; simp [change, h.mem]
    · intro c hc v; simp [change, hc]
  | emit a k =>
    obtain ⟨h1, h2, h3⟩ := emitF_spec (h.inv a) (k := k) hv
    refine ⟨repF_put h h1 ?_ ?_, ?_⟩
    · intro v; rw [h2]; simp [change, h.mem]
    · intro c hc v; simp [change, hc]
    · show (emitF (s a) k).2 = true ↔ ¬ S a k
      rw [h3, ← h.mem]; simp
  | union a b =>
    obtain ⟨h1, h2⟩ := unionF_spec (h.inv a) (h.inv b)
    refine ⟨repF_put h h1 ?_ ?_, trivial⟩
    · intro v; rw [h2]; simp [change, h.mem]
    · intro c hc v; simp [change, hc]
  | intersect a b =>
    obtain ⟨h1, h2⟩ := intersectF_spec (h.inv a) (h.inv b)
    refine ⟨repF_put h h1 ?_ ?_, trivial⟩
    · intro v; rw [h2]; simp [change, h.mem]
    · intro c hc v; simp [change, hc]
  | test a k => exact ⟨h, h.mem a k⟩
  | isEmpty a =>
    refine ⟨h, ?_⟩
    show isEmptyF (s a) = true ↔ ∀ k, IsKey k → ¬ S a k
    rw [isEmptyF_spec (h.inv a)]
    constructor
    · intro hx k hk; rw [← h.mem, hx k hk]; simp
    · intro hx k hk
      cases hb : hasF (s a).tree k with
      | false => rfl
      | true => exact absurd ((h.mem a k).1 hb) (hx k hk)
  | range a low high =>
    obtain ⟨h1, h2, r, h3, h4⟩ := rangeF_spec (h.inv a) (low := low) (high := high) hv.1 hv.2
    refine ⟨repF_put h h1 ?_ ?_, ?_⟩
    · intro v; rw [h2]; exact h.mem a v
    · intro c hc v; exact Iff.rfl
    · simp only [callF, h3]
      show r = true ↔ ∃ k, S a k ∧ value low ≤ value k ∧ value k < value high
      rw [h4]; simp only [h.mem]
  | next a prev =>
    obtain ⟨h1, h2, r, h3, h4, h5⟩ := nextF_spec (h.inv a) (prev := prev) hv
    refine ⟨repF_put h h1 ?_ ?_, ?_⟩
    · intro v; rw [h2]; exact h.mem a v
    · intro c hc v; exact Iff.rfl
    · simp only [callF, h3]
      cases r with
      | none =>
        intro k hk
        exact h4 rfl k ((h.mem a k).2 hk)
      | some x =>
        obtain ⟨i1, i2, i3⟩ := h5 x rfl
        exact ⟨(h.mem a x).1 i1, i2, fun k hk hp => i3 k ((h.mem a k).2 hk) hp⟩

theorem runF_rep (ops : List (Op (List Nat))) (hv : ∀ o ∈ ops, o.Valid IsKey) :
    RepF (runF ops) (sets ops) := by
  have : ∀ (ops : List (Op (List Nat))) (s : EnvF) (S : Nat → List Nat → Prop), RepF s S →
      (∀ o ∈ ops, o.Valid IsKey) →
      RepF (ops.foldl (fun s o => (callF s o).1) s) (ops.foldl change S) := by
    intro ops
    induction ops with
    | nil => intro s S h _; exact h
    | cons o ops ih =>
      intro s S h hv
      exact ih _ _ (callF_rep h (hv o (List.mem_cons_self ..))).1
        (fun o ho => hv o (List.mem_cons_of_mem _ ho))
  exact this ops _ _ ⟨fun _ => createF_inv, by intro a v; simp [createF, hasF, find]⟩ hv

/-! ## C26 -/

/-- C26, 64-bit mode.  After any program the answers of insert, emit, union,
intersect, test and is-empty calls are those of mathematical sets. -/
theorem C26_sets (ops : List (Op Nat)) (o : Op Nat) (hv : ∀ p ∈ ops, p.Valid U64)
    (ho : o.Valid U64) (_hs : o.isSet = true) :
    Right id U64 (sets ops) o (call (run ops) o).2 :=
  (call_rep (run_rep ops hv) ho).2

/-- C26, fixed-key mode. -/
theorem C26_sets_fixed (ops : List (Op (List Nat))) (o : Op (List Nat))
    (hv : ∀ p ∈ ops, p.Valid IsKey) (ho : o.Valid IsKey) (_hs : o.isSet = true) :
    Right value IsKey (sets ops) o (callF (runF ops) o).2 :=
  (callF_rep (runF_rep ops hv) ho).2

/-- A program that meets the hypotheses: a union, an intersection that empties a chunk,
a repeated insertion. -/
def exOps : List (Op Nat) :=
  [.insert 0 5, .insert 0 70000, .insert 1 5, .insert 1 1030, .insert 1 5, .union 2 0,
   .range 2 0 10, .union 2 1, .intersect 0 1]

theorem exOps_valid : ∀ p ∈ exOps, p.Valid U64 := by
  intro p hp
  simp only [exOps, List.mem_cons, List.not_mem_nil, or_false] at hp
  rcases hp with rfl | rfl | rfl | rfl | rfl | rfl | rfl | rfl | rfl <;>
    simp [Op.Valid, U64]

set_option maxRecDepth 20000 in
example : (call (run exOps) (.test 0 5)).2 = .bool true ∧
    (call (run exOps) (.test 0 70000)).2 = .bool false ∧
    (call (run exOps) (.emit 2 1030)).2 = .bool false ∧
    (call (run exOps) (.isEmpty 3)).2 = .bool true := ⟨rfl, rfl, rfl, rfl⟩

/-! ## C27 -/

/-- C27, 64-bit mode.  A range query answers yes exactly when a member lies in the
half-open range, the next query returns the least member not below the given key, and
neither uses a null pointer or leaves an array. -/
theorem C27_seeks (ops : List (Op Nat)) (o : Op Nat) (hv : ∀ p ∈ ops, p.Valid U64)
    (ho : o.Valid U64) (_hs : o.isSet = false) :
    Right id U64 (sets ops) o (call (run ops) o).2 :=
  (call_rep (run_rep ops hv) ho).2

/-- C27, fixed-key mode; the order is that of the numbers the keys stand for. -/
theorem C27_seeks_fixed (ops : List (Op (List Nat))) (o : Op (List Nat))
    (hv : ∀ p ∈ ops, p.Valid IsKey) (ho : o.Valid IsKey) (_hs : o.isSet = false) :
    Right value IsKey (sets ops) o (callF (runF ops) o).2 :=
  (callF_rep (runF_rep ops hv) ho).2

set_option maxRecDepth 20000 in
example : (call (run exOps) (.range 2 6 1030)).2 = .bool false ∧
    (call (run exOps) (.range 2 6 1031)).2 = .bool true ∧
    (call (run exOps) (.next 2 6)).2 = .key (some 1030) ∧
    (call (run exOps) (.next 2 1031)).2 = .key (some 70000) ∧
    (call (run exOps) (.next 2 70001)).2 = .key none := ⟨rfl, rfl, rfl, rfl, rfl⟩

/-- A 24-byte key with a given last byte. -/
def exKey (b : Nat) : List Nat := List.replicate 23 0 ++ [b]

theorem exKey_isKey : IsKey (exKey 7) ∧ IsKey (exKey 200) := by
  unfold IsKey exKey; decide

/-- A program in fixed-key mode. -/
def exOpsF : List (Op (List Nat)) :=
  [.insert 0 (exKey 200), .insert 0 (exKey 7), .insert 1 (exKey 7), .union 2 0, .intersect 0 1]

theorem exOpsF_valid : ∀ p ∈ exOpsF, p.Valid IsKey := by
  intro p hp
  simp only [exOpsF, List.mem_cons, List.not_mem_nil, or_false] at hp
  rcases hp with rfl | rfl | rfl | rfl | rfl <;>
    first | exact exKey_isKey.1 | exact exKey_isKey.2 | trivial

set_option maxRecDepth 20000 in
example : (callF (runF exOpsF) (.next 2 (exKey 8))).2 = .key (some (exKey 200)) ∧
    (callF (runF exOpsF) (.next 0 (exKey 8))).2 = .key none ∧
    (callF (runF exOpsF) (.range 2 (exKey 8) (exKey 200))).2 = .bool false ∧
    (callF (runF exOpsF) (.test 0 (exKey 7))).2 = .bool true := ⟨rfl, rfl, rfl, rfl⟩

end Verif.KeyBitmap
