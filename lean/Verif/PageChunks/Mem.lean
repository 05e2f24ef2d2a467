import Verif.PageChunks.Spec

/-! # Bytes of B-tree pages: memory -/

namespace Verif.PageChunks

/-- Memory holds a list. -/
def At (m : Nat → Nat) (a : Nat) (l : List Nat) : Prop := ∀ (i : Nat) (v : Nat), l[i]? = some v → m (a + i) = v

theorem At.nil (m a) : At m a [] := fun i v h => by simp at h

theorem At.append {m a l1 l2} : At m a (l1 ++ l2) ↔ At m a l1 ∧ At m (a + l1.length) l2 := by
  constructor
  · intro h
    refine ⟨fun i v hi => ?_, fun i v hi => ?_⟩
    · have := (List.getElem?_eq_some_iff.mp hi).1
      exact h i v (by rw [List.getElem?_append_left this]; exact hi)
    · have := h (l1.length + i) v (by rw [List.getElem?_append_right (by omega)]; simpa using hi)
      rw [← this]
      congr 1
      omega
  · intro ⟨h1, h2⟩ i v hi
    by_cases hl : i < l1.length
    · rw [List.getElem?_append_left hl] at hi
      exact h1 i v hi
    · rw [List.getElem?_append_right (by omega)] at hi
      have := h2 (i - l1.length) v hi
      rw [← this]
      congr 1
      omega

theorem At.cons {m a x l} : At m a (x :: l) ↔ m a = x ∧ At m (a + 1) l := by
  have := @At.append m a [x] l
  simp only [List.singleton_append, List.length_singleton] at this
  rw [this]
  refine and_congr_left fun _ => ⟨fun h => ?_, fun h i v hi => ?_⟩
  · have := h 0 x rfl
    simpa using this
  · match i with
    | 0 => simp only [List.getElem?_cons_zero, Option.some.injEq] at hi; rw [← hi]; simpa using h
    | i + 1 => simp at hi

theorem At.frame {m m' : Nat → Nat} {a a' : Nat} {l : List Nat} (h : At m a l)
    (e : ∀ i, i < l.length → m' (a' + i) = m (a + i)) : At m' a' l := by
  intro i v hi
  rw [e i (List.getElem?_eq_some_iff.mp hi).1]
  exact h i v hi

theorem At.same {m m' : Nat → Nat} {a : Nat} {l : List Nat} (h : At m a l)
    (e : ∀ x, a ≤ x → x < a + l.length → m' x = m x) : At m' a l :=
  h.frame fun i hi => e (a + i) (by omega) (by omega)

theorem At.getElem {m a l i} (h : At m a l) (hi : i < l.length) : m (a + i) = l[i] :=
  h i _ (List.getElem?_eq_getElem hi)

theorem At.range_map {m : Nat → Nat} {a : Nat} {l : List Nat} (h : At m a l) :
    (List.range l.length).map (fun i => m (a + i)) = l := by
  apply List.ext_getElem
  · simp
  · intro i h1 h2
    simp only [List.getElem_map, List.getElem_range]
    exact h.getElem h2

theorem Pg.read_at {s : Pg} {a : Nat} {l : List Nat} {n : Nat} (h : At s.mem a l) (hn : n = l.length) :
    s.read a n = l := by
  subst hn
  exact h.range_map

theorem Pg.read_length (s : Pg) (a n : Nat) : (s.read a n).length = n := by
  simp [Pg.read]

/-! ## Single steps as functions on memory -/

/-- `Pg.put` on memory. -/
def mPut (m : Nat → Nat) (a v : Nat) : Nat → Nat := fun x => if x = a then v else m x

/-- `Pg.move` on memory. -/
def mMove (m : Nat → Nat) (dst src n : Nat) : Nat → Nat :=
  fun x => if dst ≤ x ∧ x < dst + n then m (src + (x - dst)) else m x

/-- `Pg.copyIn` on memory. -/
def mCopy (m : Nat → Nat) (dst : Nat) (l : List Nat) : Nat → Nat :=
  fun x => if dst ≤ x ∧ x < dst + l.length then l.getD (x - dst) 0 else m x

/-- `Pg.desc` on memory. -/
def mdesc (m : Nat → Nat) (i : Nat) : Desc := .of (m (descOff + 2 * i)) (m (descOff + 2 * i + 1))

theorem Pg.desc_eq (s : Pg) (i : Nat) : s.desc i = mdesc s.mem i := rfl

theorem Pg.put_eq (s : Pg) (a v : Nat) (h : descOff ≤ a ∧ a < blck) :
    s.put a v = { s with mem := mPut s.mem a v } := by
  unfold Pg.put mPut
  have : decide (a < descOff ∨ blck ≤ a) = false := by simp; omega
  simp [this]

theorem Pg.move_eq (s : Pg) (dst src e : Nat)
    (h : src ≤ e ∧ descOff ≤ src ∧ e ≤ blck ∧ descOff ≤ dst ∧ dst + (e - src) ≤ blck) :
    s.move dst src e = { s with mem := mMove s.mem dst src (e - src) } := by
  unfold Pg.move mMove
  have : decide (e < src ∨ src < descOff ∨ blck < e ∨ dst < descOff ∨ blck < dst + (e - src)) = false := by
    simp; omega
  simp [this]

theorem Pg.copyIn_eq (s : Pg) (dst : Nat) (l : List Nat) (h : descOff ≤ dst ∧ dst + l.length ≤ blck) :
    s.copyIn dst l = { s with mem := mCopy s.mem dst l } := by
  unfold Pg.copyIn mCopy
  have : decide (dst < descOff ∨ blck < dst + l.length) = false := by simp; omega
  simp [this]

theorem mPut_ne {m a v x} (h : x ≠ a) : mPut m a v x = m x := by simp [mPut, h]

theorem mPut_self {m a v} : mPut m a v a = v := by simp [mPut]

theorem mMove_in {m dst src n x} (h : dst ≤ x ∧ x < dst + n) : mMove m dst src n x = m (src + (x - dst)) := by
  simp only [mMove, h, and_self, if_true]

theorem mMove_out {m dst src n x} (h : x < dst ∨ dst + n ≤ x) : mMove m dst src n x = m x := by
  unfold mMove
  rw [if_neg (by omega)]

theorem mCopy_out {m dst x} {l : List Nat} (h : x < dst ∨ dst + l.length ≤ x) : mCopy m dst l x = m x := by
  unfold mCopy
  rw [if_neg (by omega)]

theorem mCopy_at (m dst) (l : List Nat) : At (mCopy m dst l) dst l := by
  intro i v hi
  have hl := (List.getElem?_eq_some_iff.mp hi).1
  unfold mCopy
  rw [if_pos (by omega), Nat.add_sub_cancel_left, List.getD_eq_getElem?_getD, hi]
  rfl

/-! ## Descriptors -/

/-- `Pg.setDesc` on memory. -/
def dSet (m : Nat → Nat) (i : Nat) (d : Desc) : Nat → Nat :=
  fun x => if x = descOff + 2 * i then d.lo else if x = descOff + 2 * i + 1 then d.hi else m x

/-- Descriptors `k` to `k + n` are set. -/
def dMap (m : Nat → Nat) (k n : Nat) (F : Nat → Desc) : Nat → Nat :=
  fun x => if descOff + 2 * k ≤ x ∧ x < descOff + 2 * (k + n) then
    if (x - descOff) % 2 = 0 then (F ((x - descOff) / 2)).lo else (F ((x - descOff) / 2)).hi
  else m x

/-- A descriptor with its values cut to the width of the fields. -/
def Desc.cut (d : Desc) : Desc := ⟨d.loc % 4096, d.off % 1024, d.hloc % 128, d.fixed, d.flags % 4⟩

theorem Desc.of_lo_hi (d : Desc) : Desc.of d.lo d.hi = d.cut := by
  obtain ⟨loc, off, hloc, fixed, flags⟩ := d
  unfold Desc.of Desc.lo Desc.hi Desc.cut
  simp only
  cases fixed <;> simp <;> omega

theorem Pg.setDesc_eq (s : Pg) (i : Nat) (d : Desc) (h : descOff + 2 * i + 2 ≤ blck) :
    s.setDesc i d = { s with mem := dSet s.mem i d } := by
  unfold Pg.setDesc
  rw [Pg.put_eq _ _ _ (by omega), Pg.put_eq _ _ _ (by constructor <;> omega)]
  ext <;> try rfl
  rename_i x
  simp only [mPut, dSet]
  split <;> split <;> first | rfl | omega

theorem mdesc_dSet_ne {m i j d} (h : j ≠ i) : mdesc (dSet m i d) j = mdesc m j := by
  unfold mdesc dSet
  rw [if_neg (by omega), if_neg (by omega), if_neg (by omega), if_neg (by omega)]

theorem mdesc_dSet_self {m i d} : mdesc (dSet m i d) i = d.cut := by
  unfold mdesc dSet
  rw [if_pos rfl, if_neg (by omega), if_pos rfl, Desc.of_lo_hi]

theorem dSet_out {m i d x} (h : x < descOff + 2 * i ∨ descOff + 2 * i + 2 ≤ x) : dSet m i d x = m x := by
  unfold dSet
  rw [if_neg (by omega), if_neg (by omega)]

theorem dMap_out {m k n F x} (h : x < descOff + 2 * k ∨ descOff + 2 * (k + n) ≤ x) :
    dMap m k n F x = m x := by
  unfold dMap
  rw [if_neg (by omega)]

theorem mdesc_dMap_in {m k n F i} (h : k ≤ i ∧ i < k + n) : mdesc (dMap m k n F) i = (F i).cut := by
  have e1 : (descOff + 2 * i - descOff) / 2 = i := by omega
  have e2 : (descOff + 2 * i + 1 - descOff) / 2 = i := by omega
  unfold mdesc dMap
  rw [if_pos (by omega), if_pos (by omega), if_pos (by omega), if_neg (by omega), e1, e2, Desc.of_lo_hi]

theorem mdesc_dMap_out {m k n F i} (h : i < k ∨ k + n ≤ i) : mdesc (dMap m k n F) i = mdesc m i := by
  unfold mdesc
  rw [dMap_out (by omega), dMap_out (by omega)]

theorem mdesc_congr {m m' : Nat → Nat} {i} (h : ∀ x, descOff + 2 * i ≤ x → x < descOff + 2 * i + 2 → m' x = m x) :
    mdesc m' i = mdesc m i := by
  unfold mdesc
  rw [h _ (by omega) (by omega), h _ (by omega) (by omega)]

/-! ## Loops -/

theorem loop_put (a n k : Nat) (g : Nat → Nat) (s : Pg) (h : n = 0 ∨ descOff ≤ a + k ∧ a + k + n ≤ blck) :
    loopUp (fun s i => s.put (a + i) (g (s.mem (a + i)))) n k s =
      { s with mem := fun x => if a + k ≤ x ∧ x < a + k + n then g (s.mem x) else s.mem x } := by
  induction n generalizing k s with
  | zero =>
    ext <;> try rfl
    simp only [loopUp]
    rw [if_neg (by omega)]
  | succ n ih =>
    rw [loopUp, ih _ _ (by omega), Pg.put_eq _ _ _ (by omega)]
    ext <;> try rfl
    rename_i x
    simp only [mPut]
    by_cases hx : x = a + k
    · subst hx
      rw [if_neg (by omega), if_pos rfl, if_pos (by omega)]
    · simp only [hx, if_false]
      by_cases h2 : a + k ≤ x ∧ x < a + k + (n + 1)
      · rw [if_pos (by omega), if_pos h2]
      · rw [if_neg (by omega), if_neg h2]

theorem loop_put_next (a n k : Nat) (g : Nat → Nat) (s : Pg)
    (h : n = 0 ∨ descOff ≤ a + k ∧ a + k + n ≤ blck) :
    loopUp (fun s i => s.put (a + i) (g (s.mem (a + (i + 1))))) n k s =
      { s with mem := fun x => if a + k ≤ x ∧ x < a + k + n then g (s.mem (x + 1)) else s.mem x } := by
  induction n generalizing k s with
  | zero =>
    ext <;> try rfl
    simp only [loopUp]
    rw [if_neg (by omega)]
  | succ n ih =>
    rw [loopUp, ih _ _ (by omega), Pg.put_eq _ _ _ (by omega)]
    ext <;> try rfl
    rename_i x
    simp only [mPut]
    by_cases hx : x = a + k
    · subst hx
      rw [if_neg (by omega), if_pos rfl, if_pos (by omega)]
      rfl
    · rw [if_neg hx]
      by_cases h2 : a + k ≤ x ∧ x < a + k + (n + 1)
      · rw [if_pos (by omega), if_pos h2, if_neg (by omega)]
      · rw [if_neg (by omega), if_neg h2]

theorem loop_put_prev (a n t : Nat) (g : Nat → Nat) (s : Pg) (hn : n ≤ t)
    (h : n = 0 ∨ descOff ≤ a + (t - n) ∧ a + t < blck) :
    loopDown (fun s i => s.put (a + i) (g (s.mem (a + (i - 1))))) n t s =
      { s with mem := fun x => if a + (t - n) < x ∧ x ≤ a + t then g (s.mem (x - 1)) else s.mem x } := by
  induction n generalizing t s with
  | zero =>
    ext <;> try rfl
    simp only [loopDown]
    rw [if_neg (by omega)]
  | succ n ih =>
    rw [loopDown, ih _ _ (by omega) (by omega), Pg.put_eq _ _ _ (by omega)]
    ext <;> try rfl
    rename_i x
    simp only [mPut]
    by_cases hx : x = a + t
    · subst hx
      rw [if_neg (by omega), if_pos rfl, if_pos (by omega)]
      congr 2
      omega
    · rw [if_neg hx]
      by_cases h2 : a + (t - (n + 1)) < x ∧ x ≤ a + t
      · rw [if_pos (by omega), if_pos h2, if_neg (by omega)]
      · rw [if_neg (by omega), if_neg h2]

theorem dMap_nil {m k F} : dMap m k 0 F = m := by
  funext x
  exact dMap_out (by omega)

theorem dMap_first {m k n d} {F F' : Nat → Desc} (h0 : F k = d)
    (h : ∀ i, k < i → i < k + (n + 1) → F' i = F i) :
    dMap (dSet m k d) (k + 1) n F' = dMap m k (n + 1) F := by
  subst h0
  funext x
  by_cases h1 : x < descOff + 2 * k ∨ descOff + 2 * (k + (n + 1)) ≤ x
  · rw [dMap_out (by omega), dMap_out (by omega), dSet_out (by omega)]
  · by_cases h2 : x < descOff + 2 * k + 2
    · rw [dMap_out (by omega)]
      unfold dMap dSet
      rw [if_pos (show descOff + 2 * k ≤ x ∧ x < descOff + 2 * (k + (n + 1)) by omega)]
      have : (x - descOff) / 2 = k := by omega
      rw [this]
      by_cases h3 : x = descOff + 2 * k
      · rw [if_pos h3, if_pos (by omega)]
      · rw [if_neg h3, if_pos (by omega), if_neg (by omega)]
    · unfold dMap
      rw [if_pos (show descOff + 2 * (k + 1) ≤ x ∧ x < descOff + 2 * (k + 1 + n) by omega),
        if_pos (show descOff + 2 * k ≤ x ∧ x < descOff + 2 * (k + (n + 1)) by omega), h _ (by omega) (by omega)]

theorem dMap_last {m k n d} {F F' : Nat → Desc} (h0 : F (k + n) = d)
    (h : ∀ i, k ≤ i → i < k + n → F' i = F i) :
    dMap (dSet m (k + n) d) k n F' = dMap m k (n + 1) F := by
  subst h0
  funext x
  by_cases h1 : x < descOff + 2 * k ∨ descOff + 2 * (k + (n + 1)) ≤ x
  · rw [dMap_out (by omega), dMap_out (by omega), dSet_out (by omega)]
  · by_cases h2 : descOff + 2 * (k + n) ≤ x
    · rw [dMap_out (by omega)]
      unfold dMap dSet
      rw [if_pos (show descOff + 2 * k ≤ x ∧ x < descOff + 2 * (k + (n + 1)) by omega)]
      have : (x - descOff) / 2 = k + n := by omega
      rw [this]
      by_cases h3 : x = descOff + 2 * (k + n)
      · rw [if_pos h3, if_pos (by omega)]
      · rw [if_neg h3, if_pos (by omega), if_neg (by omega)]
    · unfold dMap
      rw [if_pos (show descOff + 2 * k ≤ x ∧ x < descOff + 2 * (k + n) by omega),
        if_pos (show descOff + 2 * k ≤ x ∧ x < descOff + 2 * (k + (n + 1)) by omega), h _ (by omega) (by omega)]

theorem loop_desc (n k : Nat) (g : Desc → Desc) (s : Pg) (h : n = 0 ∨ descOff + 2 * (k + n) ≤ blck) :
    loopUp (fun s i => s.setDesc i (g (s.desc i))) n k s =
      { s with mem := dMap s.mem k n fun i => g (mdesc s.mem i) } := by
  induction n generalizing k s with
  | zero => rw [loopUp, dMap_nil]
  | succ n ih =>
    rw [loopUp, ih _ _ (by omega), Pg.setDesc_eq _ _ _ (by omega)]
    simp only [Pg.desc_eq]
    congr 1
    refine dMap_first rfl fun i h1 h2 => ?_
    rw [mdesc_dSet_ne (by omega)]

theorem loop_desc_prev (n k : Nat) (g : Desc → Desc) (s : Pg) (hk : 1 ≤ k)
    (h : n = 0 ∨ descOff + 2 * (k + n) ≤ blck) :
    loopUp (fun s i => s.setDesc (i - 1) (g (s.desc i))) n k s =
      { s with mem := dMap s.mem (k - 1) n fun i => g (mdesc s.mem (i + 1)) } := by
  obtain ⟨k, rfl⟩ : ∃ j, k = j + 1 := ⟨k - 1, by omega⟩
  rw [Nat.add_sub_cancel]
  induction n generalizing k s with
  | zero => rw [loopUp, dMap_nil]
  | succ n ih =>
    rw [loopUp, ih _ _ (by omega) (by omega), Pg.setDesc_eq _ _ _ (by omega)]
    simp only [Pg.desc_eq, Nat.add_sub_cancel]
    congr 1
    refine dMap_first rfl fun i h1 h2 => ?_
    rw [mdesc_dSet_ne (by omega)]

theorem loop_desc_down (n t : Nat) (g : Desc → Desc) (s : Pg) (hn : n ≤ t)
    (h : n = 0 ∨ descOff + 2 * (t + 1) ≤ blck) :
    loopDown (fun s i => s.setDesc i (g (s.desc (i - 1)))) n t s =
      { s with mem := dMap s.mem (t - n + 1) n fun i => g (mdesc s.mem (i - 1)) } := by
  induction n generalizing t s with
  | zero => rw [loopDown, dMap_nil]
  | succ n ih =>
    rw [loopDown, ih _ _ (by omega) (by omega), Pg.setDesc_eq _ _ _ (by omega)]
    simp only [Pg.desc_eq]
    have e : t - 1 - n + 1 = t - (n + 1) + 1 := by omega
    have e2 : t = t - (n + 1) + 1 + n := by omega
    rw [e]
    congr 1
    generalize hq : t - (n + 1) + 1 = q at *
    subst e2
    refine dMap_last rfl fun i h1 h2 => ?_
    rw [mdesc_dSet_ne (by omega)]

end Verif.PageChunks
