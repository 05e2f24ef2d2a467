import Verif.UndoStack.Spec

/-! # The undo stack as lists of changes -/

namespace Verif.UndoStack

/-- The change recorded by an item. -/
def Item.chg : Item → List Change
  | .change t _ => [⟨t, false⟩]
  | .onc t _ _ => [⟨t, true⟩]
  | _ => []

/-- A location below `x`, or none. -/
def lt (a : Loc) (x : Nat) : Prop := ∀ y, a = some y → y < x

theorem lt_none (x : Nat) : lt none x := by intro y h; cases h

theorem lt_some {y x : Nat} (h : y < x) : lt (some y) x := by intro z hz; cases hz; exact h

theorem lt.mono {a : Loc} {x y : Nat} (h : lt a x) (hxy : x ≤ y) : lt a y :=
  fun z hz => Nat.lt_of_lt_of_le (h z hz) hxy

/-- Part of the stack, from `a` down to `b`, with the on-commit location at both ends. -/
inductive Seg (mem : Nat → Option Item) : Loc → Loc → Loc → Loc → List Change → Prop
  | nil (a oc : Loc) : Seg mem a oc a oc []
  | plain (x : Nat) (i : Item) (oc b oc' : Loc) (l : List Change) :
      mem x = some i → i.onCommit? = none → lt i.prev x → lt oc x →
      Seg mem i.prev oc b oc' l → Seg mem (some x) oc b oc' (i.chg ++ l)
  | onc (x t : Nat) (p c b oc' : Loc) (l : List Change) :
      mem x = some (.onc t p c) → lt p x → Seg mem p c b oc' l →
      Seg mem (some x) (some x) b oc' (⟨t, true⟩ :: l)

/-- Nothing stored is lost. -/
def Ext (m m' : Nat → Option Item) : Prop := ∀ x i, m x = some i → m' x = some i

theorem Seg.ext {m m' : Nat → Option Item} (hm : Ext m m') {a oc b oc' : Loc} {l : List Change}
    (h : Seg m a oc b oc' l) : Seg m' a oc b oc' l := by
  induction h with
  | nil a oc => exact .nil a oc
  | plain x i oc b oc' l h1 h2 h3 h4 _ ih => exact .plain x i oc b oc' l (hm _ _ h1) h2 h3 h4 ih
  | onc x t p c b oc' l h1 h2 _ ih => exact .onc x t p c b oc' l (hm _ _ h1) h2 ih

theorem Seg.trans {m : Nat → Option Item} {a oc b oc' c oc'' : Loc} {l l' : List Change}
    (h : Seg m a oc b oc' l) (h' : Seg m b oc' c oc'' l') : Seg m a oc c oc'' (l ++ l') := by
  induction h with
  | nil a oc => exact h'
  | plain x i oc b oc' l h1 h2 h3 h4 _ ih =>
    rw [List.append_assoc]; exact .plain x i oc c oc'' _ h1 h2 h3 h4 (ih h')
  | onc x t p k b oc' l h1 h2 _ ih => exact .onc x t p k c oc'' _ h1 h2 (ih h')

theorem Seg.ends {m : Nat → Option Item} {a oc b oc' : Loc} {l : List Change}
    (h : Seg m a oc b oc' l) : a = b ∨ ∃ x, a = some x ∧ lt b x := by
  induction h with
  | nil a oc => exact Or.inl rfl
  | plain x i oc b oc' l h1 h2 h3 h4 _ ih =>
    right
    refine ⟨x, rfl, ?_⟩
    rcases ih with ih | ⟨y, hy, hb⟩
    · rw [← ih]; exact h3
    · exact hb.mono (Nat.le_of_lt (h3 y hy))
  | onc x t p k b oc' l h1 h2 _ ih =>
    right
    refine ⟨x, rfl, ?_⟩
    rcases ih with ih | ⟨y, hy, hb⟩
    · rw [← ih]; exact h2
    · exact hb.mono (Nat.le_of_lt (h2 y hy))

theorem goOn_self (a : Loc) : goOn a a = false := by
  cases a <;> simp [goOn]

theorem goOn_above {x : Nat} {b : Loc} (h : lt b x) : goOn (some x) b = true := by
  cases b with
  | none => rfl
  | some y => simp only [goOn, decide_eq_true_eq]; exact h y rfl

theorem below_prev {m : Nat → Option Item} {a oc b oc' : Loc} {l : List Change}
    (h : Seg m a oc b oc' l) {x : Nat} (hx : lt a x) : lt b x := by
  rcases h.ends with h | ⟨y, hy, hb⟩
  · rw [← h]; exact hx
  · exact hb.mono (Nat.le_of_lt (hx y hy))

theorem call_abort (i : Item) : i.call .abort = undoAll i.chg := by cases i <;> rfl

theorem undoAll_append (a b : List Change) : undoAll (a ++ b) = undoAll a ++ undoAll b := by
  simp [undoAll]

theorem walk_stop (m : Nat → Option Item) (g : Stage) (n : Nat) (a oc : Loc) :
    walk m g n a a oc = some ([], a, oc) := by
  cases n <;> simp [walk, goOn_self]

theorem walk_seg {m : Nat → Option Item} {a oc b oc' : Loc} {l : List Change}
    (h : Seg m a oc b oc' l) : ∀ n, lt a n → walk m .abort n a b oc = some (undoAll l, b, oc') := by
  induction h with
  | nil a oc => intro n _; rw [walk_stop]; rfl
  | plain x i oc b oc' l h1 h2 h3 h4 hs ih =>
    intro n hn
    have hx : x < n := hn x rfl
    cases n with
    | zero => omega
    | succ n =>
      have hoc : oc ≠ some x := fun e => Nat.lt_irrefl _ (h4 x e)
      have hgo := goOn_above (below_prev hs h3)
      have hr := ih n (fun y hy => by have := h3 y hy; omega)
      simp only [walk, hgo, if_true, h1, Item.trackOc, if_neg hoc, Item.after, hr, call_abort,
        undoAll_append]
  | onc x t p c b oc' l h1 h2 hs ih =>
    intro n hn
    have hx : x < n := hn x rfl
    cases n with
    | zero => omega
    | succ n =>
      have hgo := goOn_above (below_prev hs h2)
      have hr := ih n (fun y hy => by have := h2 y hy; omega)
      simp only [walk, hgo, if_true, h1, Item.trackOc, Item.onCommit?, Item.after, Item.prev, hr,
        Item.call]
      rfl

/-- The same when the on-commit location is not tracked. -/
theorem walk_seg_null {m : Nat → Option Item} {a oc b oc' : Loc} {l : List Change}
    (h : Seg m a oc b oc' l) :
    ∀ n, lt a n → walk m .abort n a b none = some (undoAll l, b, none) := by
  induction h with
  | nil a oc => intro n _; rw [walk_stop]; rfl
  | plain x i oc b oc' l h1 h2 h3 h4 hs ih =>
    intro n hn
    have hx : x < n := hn x rfl
    cases n with
    | zero => omega
    | succ n =>
      have hgo := goOn_above (below_prev hs h3)
      have hr := ih n (fun y hy => by have := h3 y hy; omega)
      simp only [walk, hgo, if_true, h1, Item.trackOc, reduceCtorEq, if_false, Item.after, hr,
        call_abort, undoAll_append]
  | onc x t p c b oc' l h1 h2 hs ih =>
    intro n hn
    have hx : x < n := hn x rfl
    cases n with
    | zero => omega
    | succ n =>
      have hgo := goOn_above (below_prev hs h2)
      have hr := ih n (fun y hy => by have := h2 y hy; omega)
      simp only [walk, hgo, if_true, h1, Item.trackOc, reduceCtorEq, if_false, Item.after,
        Item.prev, hr, Item.call]
      rfl

theorem Seg.oc_lt {m : Nat → Option Item} {a oc : Loc} {l : List Change}
    (h : Seg m a oc none none l) {n : Nat} (hn : lt a n) : lt oc n := by
  cases h with
  | nil => exact hn
  | plain x i oc b oc' l h1 h2 h3 h4 hs => exact h4.mono (Nat.le_of_lt (hn x rfl))
  | onc => exact hn

theorem finish_chg (g : Stage) {i : Item} (h : i.onCommit? = none) (l : List Change) :
    finish g (i.chg ++ l) = finish g l := by
  cases i <;> simp [finish, Item.chg, Item.onCommit?] at h ⊢

theorem walk_finish {m : Nat → Option Item} {g : Stage} (hg : g ≠ .abort) {a oc b oc' : Loc}
    {l : List Change} (h : Seg m a oc b oc' l) :
    b = none → oc' = none → ∀ n, lt a n →
      ∃ r, walk m g n oc none none = some (finish g l, r) := by
  induction h with
  | nil a oc =>
    intro hb ho n _
    subst hb; subst ho
    exact ⟨_, walk_stop _ _ _ _ _⟩
  | plain x i oc b oc' l h1 h2 h3 h4 hs ih =>
    intro hb ho n hn
    rw [finish_chg g h2]
    exact ih hb ho n (h3.mono (Nat.le_of_lt (hn x rfl)))
  | onc x t p c b oc' l h1 h2 hs ih =>
    intro hb ho n hn
    have hx : x < n := hn x rfl
    cases n with
    | zero => omega
    | succ n =>
      obtain ⟨r, hr⟩ := ih hb ho n (fun y hy => by have := h2 y hy; omega)
      refine ⟨r, ?_⟩
      have ha : (Item.onc t p c).after g = some c := by cases g <;> simp_all [Item.after, Item.onCommit?]
      simp only [walk, goOn, if_true, h1, Item.trackOc, reduceCtorEq, if_false, ha, hr, Item.call]
      simp [finish]

/-- The stack as one list of changes per recorded savepoint. -/
inductive Lv (m : Nat → Option Item) (min : Nat) :
    List Nat → Loc → Loc → Loc → List Change → List (List Change) → Prop
  | base (subs : List Nat) (loc oc sx : Loc) (l : List Change) :
      (∀ a p r, subs = a :: p :: r → p < min ∨ min = 0) → Seg m loc oc none none l →
      Lv m min subs loc oc sx l []
  | level (a p : Nat) (r : List Nat) (loc oc : Loc) (z : Nat) (oc' : Loc) (f : List Change)
      (pz q : Loc) (g : List Change) (gs : List (List Change)) :
      min ≤ p → min ≠ 0 → Seg m loc oc (some z) oc' f → m z = some (.sub pz q p) → lt pz z →
      lt oc' z → Lv m min (p :: r) pz oc' q g gs →
      Lv m min (a :: p :: r) loc oc (some z) f (g :: gs)

/-- The branch items, with the calls of the rollbacks they stand for. -/
inductive Br (m : Nat → Option Item) : Loc → List (List Call) → Prop
  | nil : Br m none []
  | cons (x : Nat) (prev long pb oc oc' : Loc) (f : List Change) (r : List (List Call)) :
      m x = some (.branch prev long pb) → Seg m long oc prev oc' f → lt long x → lt pb x →
      Br m pb r → Br m (some x) (undoAll f :: r)

theorem Lv.ext {m m' : Nat → Option Item} (hm : Ext m m') {min : Nat} {subs : List Nat}
    {loc oc sx : Loc} {g : List Change} {gs : List (List Change)}
    (h : Lv m min subs loc oc sx g gs) : Lv m' min subs loc oc sx g gs := by
  induction h with
  | base subs loc oc sx l h1 h2 => exact .base _ _ _ _ _ h1 (h2.ext hm)
  | level a p r loc oc z oc' f pz q g gs h1 h2 h3 h4 h5 h6 _ ih =>
    exact .level a p r loc oc z oc' f pz q g gs h1 h2 (h3.ext hm) (hm _ _ h4) h5 h6 ih

theorem Br.ext {m m' : Nat → Option Item} (hm : Ext m m') {b : Loc} {r : List (List Call)}
    (h : Br m b r) : Br m' b r := by
  induction h with
  | nil => exact .nil
  | cons x prev long pb oc oc' f r h1 h2 h3 h4 _ ih =>
    exact .cons x prev long pb oc oc' f r (hm _ _ h1) (h2.ext hm) h3 h4 ih

theorem Lv.prepend {m : Nat → Option Item} {min : Nat} {subs : List Nat} {loc oc loc' oc' sx : Loc}
    {f g : List Change} {gs : List (List Change)} (hs : Seg m loc oc loc' oc' f)
    (h : Lv m min subs loc' oc' sx g gs) : Lv m min subs loc oc sx (f ++ g) gs := by
  cases h with
  | base _ _ _ _ _ h1 h2 => exact .base _ _ _ _ _ h1 (hs.trans h2)
  | level a p r _ _ z oc' f pz q g gs h1 h2 h3 h4 h5 h6 h7 =>
    exact .level a p r _ _ z oc' _ pz q g gs h1 h2 (hs.trans h3) h4 h5 h6 h7

/-- Everything on the stack, as one part. -/
theorem Lv.whole {m : Nat → Option Item} {min : Nat} {subs : List Nat} {loc oc sx : Loc}
    {g : List Change} {gs : List (List Change)} (h : Lv m min subs loc oc sx g gs) :
    Seg m loc oc none none (g ++ gs.flatten) := by
  induction h with
  | base subs loc oc sx l h1 h2 => simpa using h2
  | level a p r loc oc z oc' f pz q g gs h1 h2 h3 h4 h5 h6 _ ih =>
    have hz : Seg m (some z) oc' none none (g ++ gs.flatten) := by
      have := Seg.plain z (.sub pz q p) oc' none none (g ++ gs.flatten) h4 rfl h5 h6 ih
      simpa [Item.chg] using this
    simpa using h3.trans hz

theorem Lv.base_inv {m : Nat → Option Item} {min : Nat} {subs : List Nat} {loc oc sx : Loc}
    {g : List Change} {gs : List (List Change)} (h : Lv m min subs loc oc sx g gs) (e : gs = []) :
    (∀ a p r, subs = a :: p :: r → p < min ∨ min = 0) ∧ Seg m loc oc none none g := by
  cases h with
  | base _ _ _ _ _ h1 h2 => exact ⟨h1, h2⟩
  | level => cases e

theorem Lv.level_inv {m : Nat → Option Item} {min : Nat} {subs : List Nat} {loc oc sx : Loc}
    {f g : List Change} {gs gs' : List (List Change)} (h : Lv m min subs loc oc sx f gs')
    (e : gs' = g :: gs) :
    ∃ a p r z oc' pz q, subs = a :: p :: r ∧ sx = some z ∧ min ≤ p ∧ min ≠ 0 ∧
      Seg m loc oc (some z) oc' f ∧ m z = some (.sub pz q p) ∧ lt pz z ∧ lt oc' z ∧
      Lv m min (p :: r) pz oc' q g gs := by
  cases h with
  | base => cases e
  | level a p r _ _ z oc' _ pz q _ _ h1 h2 h3 h4 h5 h6 h7 =>
    cases e
    exact ⟨a, p, r, z, oc', pz, q, rfl, rfl, h1, h2, h3, h4, h5, h6, h7⟩

theorem Br.apply {m : Nat → Option Item} {b : Loc} {r : List (List Call)} (h : Br m b r) :
    ∀ fuel n, lt b fuel → lt b n → applyBranches m fuel n b = some r.flatten := by
  induction h with
  | nil => intro fuel n _ _; cases n <;> simp [applyBranches]
  | cons x prev long pb oc oc' f r h1 h2 h3 h4 _ ih =>
    intro fuel n hf hn
    have hx : x < n := hn x rfl
    have hxf : x < fuel := hf x rfl
    cases n with
    | zero => omega
    | succ n =>
      have hr := ih fuel n (h4.mono (Nat.le_of_lt hxf)) (fun y hy => by have := h4 y hy; omega)
      have hw := walk_seg_null h2 fuel (h3.mono (Nat.le_of_lt hxf))
      simp only [applyBranches, h1, hw, hr]
      simp

end Verif.UndoStack
