import Verif.PageChunks.Cut

/-! # Bytes of B-tree pages: how a reorganization moves items -/

namespace Verif.PageChunks

/-- The item a source stands for. -/
def Src.item (s : Pg) (x : Src) : Item := ⟨x.flag, x.words s⟩

theorem Src.words_length (s : Pg) (x : Src) : (x.words s).length = x.size := by
  cases x with
  | own a n f => exact s.read_length a n
  | ext w f => rfl

/-- The size of sources. -/
def slen (c : List Src) : Nat := (c.map Src.size).sum

theorem slen_cons (x c) : slen (x :: c) = x.size + slen c := rfl

theorem slen_eq (s : Pg) (c : List Src) : ilen (c.map (Src.item s)) = slen c := by
  induction c with
  | nil => rfl
  | cons x c ih => rw [List.map_cons, ilen_cons, ih, slen_cons]; congr 1; exact x.words_length s

theorem arrayOf_eq (s : Pg) (sh : Nat) (c : List Src) : arrayOf sh c = iarr sh (c.map (Src.item s)) := by
  induction c generalizing sh with
  | nil => rfl
  | cons x c ih =>
    rw [arrayOf, List.map_cons, iarr, ih]
    have : (Src.item s x).words.length = x.size := x.words_length s
    rw [this]
    rfl

/-- Items of the page come in the order of their addresses. -/
def Sorted : Nat → List Src → Prop
  | _, [] => True
  | lo, .own a n _ :: xs => lo ≤ a ∧ a + n ≤ 4096 ∧ Sorted (a + n) xs
  | lo, .ext _ _ :: xs => Sorted lo xs

/-- Where they end. -/
def topOf : Nat → List Src → Nat
  | lo, [] => lo
  | _, .own a n _ :: xs => topOf (a + n) xs
  | lo, .ext _ _ :: xs => topOf lo xs

theorem Sorted.append {lo xs ys} : Sorted lo (xs ++ ys) ↔ Sorted lo xs ∧ Sorted (topOf lo xs) ys := by
  induction xs generalizing lo with
  | nil => simp [Sorted, topOf]
  | cons x xs ih =>
    cases x with
    | own a n f => simp only [List.cons_append, Sorted, topOf, ih, and_assoc]
    | ext w f => simp only [List.cons_append, Sorted, topOf, ih]

theorem Sorted.le_top {lo xs} (h : Sorted lo xs) : lo ≤ topOf lo xs := by
  induction xs generalizing lo with
  | nil => exact Nat.le_refl _
  | cons x xs ih =>
    cases x with
    | own a n f => have := ih h.2.2; have := h.1; simp only [topOf]; omega
    | ext w f => exact ih h

/-- The items are in memory where they were. -/
def Intact (s : Pg) (m : Nat → Nat) (c : List Src) : Prop := ∀ a n f, Src.own a n f ∈ c → At m a (s.read a n)

theorem Sorted.intact {s : Pg} {m m' : Nat → Nat} {lo c} (h : Sorted lo c) (i : Intact s m c)
    (e : ∀ x, x < topOf lo c → m' x = m x) : Intact s m' c := by
  induction c generalizing lo with
  | nil => intro a n f hm; simp at hm
  | cons x c ih =>
    cases x with
    | own a n f =>
      intro a' n' f' hm
      rcases List.mem_cons.mp hm with h0 | hm
      · cases h0
        refine (i a n f (by simp)).same fun x h1 h2 => e x ?_
        have := h.2.2.le_top
        rw [Pg.read_length] at h2
        simp only [topOf]
        omega
      · exact ih h.2.2 (fun a n f hm => i a n f (by simp [hm])) e a' n' f' hm
    | ext w f =>
      intro a' n' f' hm
      rcases List.mem_cons.mp hm with h0 | hm
      · cases h0
      · exact ih h (fun a n f hm => i a n f (by simp [hm])) e a' n' f' hm

/-- After the first pass: an item is at the higher of its place and where it was. -/
def Kept (s : Pg) (m : Nat → Nat) : Nat → List Src → Prop
  | _, [] => True
  | p, x :: xs => (∀ a n f, x = .own a n f → At m (max p a) (s.read a n)) ∧ Kept s m (p + x.size) xs

theorem Kept.same {s : Pg} {m m' : Nat → Nat} {p c} (h : Kept s m p c) (e : ∀ x, p ≤ x → m' x = m x) :
    Kept s m' p c := by
  induction c generalizing p with
  | nil => trivial
  | cons x c ih =>
    exact ⟨fun a n f hx => (h.1 a n f hx).same fun y h1 _ => e y (by omega), ih h.2 fun y hy => e y (by omega)⟩

theorem backItems {s0 : Pg} (c : List Src) : ∀ {s : Pg} {p lo : Nat}, descOff ≤ p → p + slen c ≤ 4096 → descOff ≤ lo →
    Sorted lo c → Intact s0 s.mem c →
    ∃ m, c.foldr backItem (s, p + slen c) = ({ s with mem := m }, p) ∧ Kept s0 m p c ∧
      (∀ x, x < p ∨ x < lo ∨ p + slen c ≤ x → m x = s.mem x) := by
  induction c with
  | nil => intro s p lo _ _ _ _ _; exact ⟨s.mem, rfl, trivial, fun _ _ => rfl⟩
  | cons x c ih =>
    intro s p lo hp hfit hlo hs hi
    have hi' : Intact s0 s.mem c := fun a n f hm => hi a n f (by simp [hm])
    rw [slen_cons] at hfit ⊢
    rw [← Nat.add_assoc, List.foldr_cons]
    cases x with
    | own a n f =>
      obtain ⟨h1, h2, h3⟩ := hs
      have hsz : (Src.own a n f).size = n := rfl
      rw [hsz] at hfit ⊢
      obtain ⟨m, e, k, fr⟩ := ih (s := s) (p := p + n) (lo := a + n) (by omega) (by omega) (by omega) h3 hi'
      rw [e]
      unfold backItem
      simp only [hsz, Nat.add_sub_cancel]
      have hat : At m a (s0.read a n) := (hi a n f (by simp)).same fun y _ h => by
        rw [Pg.read_length] at h
        exact fr y (by omega)
      by_cases hc : a < p
      · rw [if_pos hc]
        have hbl : blck = 4096 := rfl
        rw [Pg.move_eq _ p a (a + n) (by omega)]
        refine ⟨_, rfl, ⟨?_, ?_⟩, ?_⟩
        · intro a' n' f' h0
          cases h0
          rw [Nat.max_eq_left (by omega)]
          refine hat.frame fun i hi => ?_
          rw [Pg.read_length] at hi
          rw [mMove_in (by omega), Nat.add_sub_cancel_left]
        · refine k.same fun y hy => ?_
          rw [mMove_out (by omega)]
        · intro y hy
          simp only
          rw [mMove_out (by omega)]
          exact fr y (by omega)
      · rw [if_neg hc]
        refine ⟨_, rfl, ⟨?_, k⟩, fun y hy => fr y (by omega)⟩
        intro a' n' f' h0
        cases h0
        rw [Nat.max_eq_right (by omega)]
        exact hat
    | ext w f =>
      obtain ⟨m, e, k, fr⟩ := ih (s := s) (p := p + (Src.ext w f).size) (lo := lo) (by omega) (by omega) (by omega) hs hi'
      rw [e]
      unfold backItem
      simp only [Nat.add_sub_cancel]
      refine ⟨_, rfl, ⟨?_, k⟩, fun y hy => fr y (by omega)⟩
      intro a' n' f' h0
      cases h0

/-- The size of chunks. -/
def clen (cs : List (List Src)) : Nat := (cs.map fun c => al c.length + slen c).sum

theorem clen_cons (c cs) : clen (c :: cs) = al c.length + slen c + clen cs := rfl

/-- `Kept` for chunks. -/
def KeptC (s : Pg) (m : Nat → Nat) : Nat → List (List Src) → Prop
  | _, [] => True
  | p, c :: cs => Kept s m (p + al c.length) c ∧ KeptC s m (p + (al c.length + slen c)) cs

theorem KeptC.same {s : Pg} {m m' : Nat → Nat} {p cs} (h : KeptC s m p cs) (e : ∀ x, p ≤ x → m' x = m x) :
    KeptC s m' p cs := by
  induction cs generalizing p with
  | nil => trivial
  | cons c cs ih =>
    exact ⟨h.1.same fun y hy => e y (by omega), ih h.2 fun y hy => e y (by omega)⟩

theorem backChunks {s0 : Pg} (cs : List (List Src)) : ∀ {s : Pg} {p lo : Nat}, descOff ≤ p → p + clen cs ≤ 4096 →
    descOff ≤ lo → Sorted lo cs.flatten → Intact s0 s.mem cs.flatten →
    ∃ m, cs.foldr backChunk (s, p + clen cs) = ({ s with mem := m }, p) ∧ KeptC s0 m p cs ∧
      (∀ x, x < p ∨ x < lo ∨ p + clen cs ≤ x → m x = s.mem x) := by
  induction cs with
  | nil => intro s p lo _ _ _ _ _; exact ⟨s.mem, rfl, trivial, fun _ _ => rfl⟩
  | cons c cs ih =>
    intro s p lo hp hfit hlo hs hi
    rw [List.flatten_cons, Sorted.append] at hs
    rw [List.flatten_cons] at hi
    have htop := hs.1.le_top
    rw [clen_cons] at hfit ⊢
    obtain ⟨m1, e1, k1, f1⟩ := ih (s := s) (p := p + (al c.length + slen c)) (lo := topOf lo c) (by omega) (by omega)
      (by omega) hs.2 (fun a n f hm => hi a n f (by simp [hm]))
    have hi1 : Intact s0 m1 c := hs.1.intact (fun a n f hm => hi a n f (by simp [hm])) fun x hx => f1 x (by omega)
    obtain ⟨m2, e2, k2, f2⟩ := backItems (s0 := s0) c (s := { s with mem := m1 }) (p := p + al c.length) (lo := lo)
      (by omega) (by omega) hlo hs.1 hi1
    have e3 : p + (al c.length + slen c + clen cs) = p + (al c.length + slen c) + clen cs := by omega
    have e4 : p + al c.length + slen c = p + (al c.length + slen c) := by omega
    rw [e3, List.foldr_cons, e1]
    unfold backChunk
    rw [e4] at e2 f2
    rw [e2]
    refine ⟨m2, ?_, ⟨k2, k1.same fun x hx => f2 x (by omega)⟩, fun x hx => ?_⟩
    · simp only [Nat.add_sub_cancel]
    · rw [f2 x (by omega)]
      exact f1 x (by omega)

/-- All items of the page are within it. -/
def InPage (c : List Src) : Prop := ∀ a n f, Src.own a n f ∈ c → descOff ≤ a ∧ a + n ≤ 4096

theorem Sorted.inPage {lo c} (h : Sorted lo c) (hlo : descOff ≤ lo) : InPage c := by
  induction c generalizing lo with
  | nil => intro a n f hm; simp at hm
  | cons x c ih =>
    cases x with
    | own a n f =>
      obtain ⟨h1, h2, h3⟩ := h
      intro a' n' f' hm
      rcases List.mem_cons.mp hm with h0 | hm
      · cases h0
        omega
      · exact ih h3 (by omega) a' n' f' hm
    | ext w f =>
      intro a' n' f' hm
      rcases List.mem_cons.mp hm with h0 | hm
      · cases h0
      · exact ih h hlo a' n' f' hm

theorem placeItems_at {s0 : Pg} (c : List Src) : ∀ {s : Pg} {p : Nat}, descOff ≤ p → p + slen c ≤ 4096 → InPage c →
    Kept s0 s.mem p c →
    ∃ m, placeItems c p s = { s with mem := m } ∧ At m p (idata (c.map (Src.item s0))) ∧
      (∀ x, x < p ∨ p + slen c ≤ x → m x = s.mem x) := by
  induction c with
  | nil => intro s p _ _ _ _; exact ⟨s.mem, rfl, At.nil _ _, fun _ _ => rfl⟩
  | cons x c ih =>
    intro s p hp hfit hin hk
    rw [slen_cons] at hfit ⊢
    have hbl : blck = 4096 := rfl
    have hin' : InPage c := fun a n f hm => hin a n f (by simp [hm])
    have hwl := x.words_length s0
    -- one item
    obtain ⟨m1, e1, a1, f1⟩ : ∃ m1, (match x with
        | .own a n _ => if p < a then s.move p a (a + n) else s
        | .ext w _ => s.copyIn p w) = { s with mem := m1 } ∧ At m1 p (x.words s0) ∧
          (∀ y, y < p ∨ p + x.size ≤ y → m1 y = s.mem y) := by
      cases x with
      | own a n f =>
        have hsz : (Src.own a n f).size = n := rfl
        have h1 := hin a n f (by simp)
        have h2 := hk.1 a n f rfl
        simp only
        by_cases hc : p < a
        · rw [if_pos hc, Pg.move_eq _ p a (a + n) (by omega)]
          refine ⟨_, rfl, ?_, ?_⟩
          · rw [Nat.max_eq_right (by omega)] at h2
            refine h2.frame fun i hi => ?_
            rw [Pg.read_length] at hi
            rw [mMove_in (by omega)]
            congr 1
            omega
          · intro y hy
            rw [hsz] at hy
            rw [mMove_out (by omega)]
        · rw [if_neg hc]
          rw [Nat.max_eq_left (by omega)] at h2
          exact ⟨_, rfl, h2, fun _ _ => rfl⟩
      | ext w f =>
        have hsz : (Src.ext w f).size = w.length := rfl
        simp only
        rw [Pg.copyIn_eq _ _ _ (by omega)]
        refine ⟨_, rfl, mCopy_at _ _ _, ?_⟩
        intro y hy
        rw [hsz] at hy
        rw [mCopy_out (by omega)]
    obtain ⟨m2, e2, a2, f2⟩ := ih (s := { s with mem := m1 }) (p := p + x.size) (by omega) (by omega) hin'
      (hk.2.same fun y hy => f1 y (by omega))
    refine ⟨m2, ?_, ?_, ?_⟩
    · have : placeItems c (p + x.size) (match x with
        | .own a n _ => if p < a then s.move p a (a + n) else s
        | .ext w _ => s.copyIn p w) = { s with mem := m2 } := by rw [e1, e2]
      cases x <;> exact this
    · rw [List.map_cons, idata_cons, At.append]
      have hl : (Src.item s0 x).words.length = x.size := hwl
      rw [hl]
      refine ⟨?_, a2⟩
      refine a1.same fun y h1 h2 => f2 y ?_
      omega
    · intro y hy
      rw [f2 y (by omega)]
      exact f1 y (by omega)

end Verif.PageChunks
