import Verif.UndoFlush.Spec

/-!
# The flush of the undo log: what holds in calm runs
-/

namespace Verif.UndoFlush

variable {c : Cfg} {s : St}

/-! ## Arithmetic -/

theorem mod_inj {k a b w : Nat} (h : a % k = b % k) (h1 : w ≤ a) (h2 : a < w + k) (h3 : w ≤ b)
    (h4 : b < w + k) : a = b := by
  have ha := Nat.div_add_mod a k
  have hb := Nat.div_add_mod b k
  have hk : 0 < k := by omega
  have hq : a / k = b / k := by
    apply Nat.le_antisymm
    · apply Nat.le_of_lt_succ
      apply Nat.lt_of_mul_lt_mul_left (a := k)
      rw [Nat.mul_succ]; omega
    · apply Nat.le_of_lt_succ
      apply Nat.lt_of_mul_lt_mul_left (a := k)
      rw [Nat.mul_succ]; omega
  rw [hq] at ha
  omega

theorem Cfg.index_of (c : Cfg) (x : Nat) : c.index x = x / c.page % c.pages :=
  Nat.mod_mul_right_div_self ..

theorem Cfg.index_page (c : Cfg) (p : Nat) : c.index (p * c.page) = p % c.pages := by
  rw [c.index_of, Nat.mul_div_cancel _ c.hpage]

theorem page_lt {x p : Nat} : x / c.page < p ↔ x < p * c.page := Nat.div_lt_iff_lt_mul c.hpage

theorem page_le {x p : Nat} : p ≤ x / c.page ↔ p * c.page ≤ x := Nat.le_div_iff_mul_le c.hpage

theorem page_mono {x y : Nat} (h : x ≤ y) : x / c.page ≤ y / c.page := Nat.div_le_div_right h

theorem win_page {x w : Nat} (h : x < w * c.page + c.size) : x / c.page < w + c.pages := by
  rw [page_lt, Nat.add_mul, Nat.mul_comm c.pages]; exact h

/-- In the window the bit determines the page. -/
theorem bit_page {x p w : Nat} (h : c.index x = p % c.pages) (h1 : w ≤ x / c.page)
    (h2 : x / c.page < w + c.pages) (h3 : w ≤ p) (h4 : p < w + c.pages) : x / c.page = p := by
  rw [c.index_of] at h
  exact mod_inj h h1 h2 h3 h4

theorem upd_same {α : Type} (f : Nat → α) (a : Nat) (v : α) : upd f a v a = v := if_pos rfl

theorem upd_other {α : Type} (f : Nat → α) {a b : Nat} (v : α) (h : b ≠ a) : upd f a v b = f b :=
  if_neg h

theorem mark_keep {bits : Nat → Bool} {x n i : Nat} (h : bits i = true) :
    mark c bits x n i = true := by
  induction n with
  | zero => exact h
  | succ n ih => simp only [mark, upd]; split <;> simp [*]

theorem mark_in {bits : Nat → Bool} {x n y : Nat} (h1 : x ≤ y) (h2 : y < x + n) :
    mark c bits x n (c.index y) = true := by
  induction n with
  | zero => omega
  | succ n ih =>
    simp only [mark, upd]
    split
    · rfl
    · rename_i h3
      by_cases h4 : y = x + n
      · exact absurd (by rw [h4]) h3
      · exact ih (by omega)

/-- What is put into the ring. -/
theorem ringStore_in {ring : Nat → Nat} {l x : Nat} {vs : List Nat} (h1 : l ≤ x)
    (h2 : x < l + vs.length) (hn : vs.length ≤ c.size) :
    ringStore c ring l vs (x % c.size) = vs.getD (x - l) 0 := by
  have hout : ∀ (vs : List Nat) (ring : Nat → Nat) (l y : Nat),
      (∀ z, l ≤ z → z < l + vs.length → z % c.size ≠ y) → ringStore c ring l vs y = ring y := by
    intro vs
    induction vs with
    | nil => intros; rfl
    | cons v vs ih =>
      intro ring l y h
      simp only [ringStore]
      rw [ih _ _ _ (fun z hz hz' => h z (by omega) (by simp only [List.length_cons]; omega))]
      exact upd_other _ _ fun h' => h l (Nat.le_refl _) (by simp) h'.symm
  induction vs generalizing ring l with
  | nil => simp at h2; omega
  | cons v vs ih =>
    simp only [ringStore, List.length_cons] at *
    by_cases hx : x = l
    · subst hx
      rw [hout _ _ _ _ (fun z hz hz' h => ?_), upd_same]
      · simp
      · have := mod_inj (w := x) h (by omega) (by omega) (by omega) (by omega)
        omega
    · rw [ih (by omega) (by omega) (by omega)]
      have : x - l = (x - (l + 1)) + 1 := by omega
      rw [this, List.getD_cons_succ]

theorem ringStore_out {ring : Nat → Nat} {l y : Nat} {vs : List Nat}
    (h : ∀ z, l ≤ z → z < l + vs.length → z % c.size ≠ y) : ringStore c ring l vs y = ring y := by
  induction vs generalizing ring l with
  | nil => rfl
  | cons v vs ih =>
    simp only [ringStore, List.length_cons] at *
    rw [ih (fun z hz hz' => h z (by omega) (by omega))]
    exact upd_other _ _ fun h' => h l (Nat.le_refl _) (by omega) h'.symm

/-! ## The invariant -/

/-- What holds of the log. -/
structure Log (c : Cfg) (s : St) : Prop where
  wu : s.written ≤ s.used
  lu : s.low ≤ s.used
  win : s.used ≤ s.written / c.page * c.page + c.size
  open1 : ∀ l n, (l, n) ∈ s.opened → s.written ≤ l ∧ s.low ≤ l ∧ l + n ≤ s.used
  openBit : ∀ l n, (l, n) ∈ s.opened → ∀ x, l ≤ x → x < l + n → s.bits (c.index x) = true
  openDone : ∀ l n, (l, n) ∈ s.opened → ∀ x, l ≤ x → x < l + n → s.done x = false
  openDisj : s.opened.Pairwise fun a b => a.1 + a.2 ≤ b.1 ∨ b.1 + b.2 ≤ a.1
  doneU : ∀ x, s.done x = true → x < s.used
  ringV : ∀ x, s.done x = true → s.written ≤ x → s.ring (x % c.size) = s.val x
  ringM : ∀ x, s.done x = true → s.written ≤ x →
    s.disk x = s.val x ∨ s.bits (c.index x) = true
  fileV : ∀ x, s.done x = true → s.low ≤ x → x < s.written → s.file x = s.val x
  fileM : ∀ x, s.done x = true → s.low ≤ x → x < s.written →
    s.disk x = s.file x ∨ s.fdirty (x / c.page) = true
  tail : ∀ x, s.written ≤ x → s.file x = s.disk x
  strad : ∀ x, s.done x = true → s.low ≤ x → x < s.written → x / c.page = s.written / c.page →
    s.disk x = s.file x ∨ s.bits (c.index x) = true

/-- What holds of the checkpointer. -/
def CkOk (c : Cfg) (s : St) : Ck → Prop
  | .idle => True
  | .wait lo hi => s.low ≤ lo ∧ lo ≤ hi ∧ hi ≤ s.used
  | .flush lo hi m pg k =>
    s.low ≤ lo ∧ hi ≤ s.used ∧ m ≤ s.used ∧ (∀ l n, (l, n) ∈ s.opened → m ≤ l ∧ hi ≤ l) ∧
      (0 < k → (pg + k - 1) * c.page < hi) ∧
      ∀ x, s.done x = true → lo ≤ x → x < hi →
        s.val x ∈ s.seen x ∧
        (x < s.written → s.disk x ∈ s.seen x ∨ s.fdirty (x / c.page) = true) ∧
        (s.written ≤ x → x / c.page < pg + k ∧ (x / c.page < pg → s.disk x ∈ s.seen x))
  | .sync lo hi pg k =>
    s.low ≤ lo ∧ hi ≤ s.used ∧ (∀ l n, (l, n) ∈ s.opened → hi ≤ l) ∧
      ∀ x, s.done x = true → lo ≤ x → x < hi →
        s.val x ∈ s.seen x ∧
        (s.disk x ∈ s.seen x ∨
          x < s.written ∧ s.fdirty (x / c.page) = true ∧ pg ≤ x / c.page ∧ x / c.page < pg + k)
  | .done lo hi =>
    (∀ l n, (l, n) ∈ s.opened → hi ≤ l) ∧ hi ≤ s.used ∧
      ∀ x, s.done x = true → lo ≤ x → x < hi →
        s.val x ∈ s.seen x ∧ s.disk x ∈ s.seen x ∧ s.file x ∈ s.seen x

structure Inv (c : Cfg) (s : St) : Prop where
  log : Log c s
  ck : CkOk c s s.ck

theorem Inv.init (n : Nat) : Inv c (St.init n) where
  log := by
    constructor <;> simp [St.init]
    have := Nat.div_add_mod n c.page
    have h1 := Nat.mod_lt n c.hpage
    have h2 : c.page ≤ c.size := Nat.le_mul_of_pos_right _ c.hpages
    rw [Nat.mul_comm] at this
    omega
  ck := trivial

/-! ## Steps of the log -/

theorem Inv.alloc {n : Nat} (h : Inv c s) (hc : calmStep c s (.alloc n)) :
    Inv c (alloc c s n) := by
  have hc : s.used + n ≤ s.written / c.page * c.page + c.size := hc
  obtain ⟨hl, hk⟩ := h
  have hk' : ∀ (s' : St), s'.used = s.used + n → s'.low = s.low → s'.written = s.written →
      (∀ l m, (l, m) ∈ s'.opened → (l, m) ∈ s.opened ∨ s.used ≤ l) → s'.done = s.done →
      s'.val = s.val → s'.seen = s.seen → s'.disk = s.disk → s'.file = s.file →
      s'.fdirty = s.fdirty → s'.ck = s.ck → CkOk c s' s'.ck := by
    intro s' e1 e2 e3 e4 e5 e6 e7 e8 e9 e10 e11
    rw [e11]
    cases hs : s.ck with
    | idle => trivial
    | wait lo hi =>
      rw [hs] at hk
      obtain ⟨h1, h2, h3⟩ := hk
      exact ⟨by omega, h2, by omega⟩
    | flush lo hi m pg k =>
      rw [hs] at hk
      obtain ⟨h1, h2, h3, h4, h5, h6⟩ := hk
      refine ⟨by omega, by omega, by omega, fun l n hm => ?_, h5, ?_⟩
      · rcases e4 l n hm with h | h
        · exact h4 l n h
        · omega
      · rw [e3, e5, e6, e7, e8, e10]; exact h6
    | sync lo hi pg k =>
      rw [hs] at hk
      obtain ⟨h1, h2, h4, h6⟩ := hk
      refine ⟨by omega, by omega, fun l n hm => ?_, ?_⟩
      · rcases e4 l n hm with h | h
        · exact h4 l n h
        · omega
      · rw [e3, e5, e6, e7, e8, e10]; exact h6
    | done lo hi =>
      rw [hs] at hk
      obtain ⟨h4, h2, h6⟩ := hk
      refine ⟨fun l n hm => ?_, by omega, ?_⟩
      · rcases e4 l n hm with h | h
        · exact h4 l n h
        · omega
      · rw [e5, e6, e7, e8, e9]; exact h6
  unfold UndoFlush.alloc
  split
  · rename_i hg
    split
    · refine ⟨?_, hk' _ rfl rfl rfl ?_ rfl rfl rfl rfl rfl rfl rfl⟩
      · constructor <;> dsimp only
        · have := hl.wu; omega
        · have := hl.lu; omega
        · exact hc
        · intro l m hm
          rcases List.mem_cons.1 hm with h | h
          · cases h; have := hl.wu; have := hl.lu; omega
          · have := hl.open1 l m h; omega
        · intro l m hm x h1 h2
          rcases List.mem_cons.1 hm with h | h
          · cases h; exact mark_in h1 h2
          · exact mark_keep (hl.openBit l m h x h1 h2)
        · intro l m hm x h1 h2
          rcases List.mem_cons.1 hm with h | h
          · cases h
            cases hd : s.done x
            · rfl
            · have := hl.doneU x hd; omega
          · exact hl.openDone l m h x h1 h2
        · refine List.pairwise_cons.2 ⟨fun b hb => ?_, hl.openDisj⟩
          have := hl.open1 b.1 b.2 hb
          exact .inr this.2.2
        · intro x hx; have := hl.doneU x hx; omega
        · exact hl.ringV
        · intro x h1 h2
          exact (hl.ringM x h1 h2).imp_right mark_keep
        · exact hl.fileV
        · exact hl.fileM
        · exact hl.tail
        · intro x h1 h2 h3 h4
          exact (hl.strad x h1 h2 h3 h4).imp_right mark_keep
      · intro l m hm
        rcases List.mem_cons.1 hm with h | h
        · cases h; exact .inr (Nat.le_refl _)
        · exact .inl h
    · refine ⟨?_, hk' _ rfl rfl rfl (fun _ _ => .inl) rfl rfl rfl rfl rfl rfl rfl⟩
      constructor <;> dsimp only
      · have := hl.wu; omega
      · have := hl.lu; omega
      · exact hc
      · intro l m hm; have := hl.open1 l m hm; omega
      · exact hl.openBit
      · exact hl.openDone
      · exact hl.openDisj
      · intro x hx; have := hl.doneU x hx; omega
      · exact hl.ringV
      · exact hl.ringM
      · exact hl.fileV
      · exact hl.fileM
      · exact hl.tail
      · exact hl.strad
  · exact ⟨hl, hk⟩

/-- The slots of the log differ. -/
theorem Log.slot (h : Log c s) {x y : Nat} (hx : s.written ≤ x) (hx' : x < s.used)
    (hy : s.written ≤ y) (hy' : y < s.used) (he : x % c.size = y % c.size) : x = y := by
  have h1 : s.written / c.page * c.page ≤ s.written := Nat.div_mul_le_self ..
  have := h.win
  exact mod_inj (w := s.written) he hx (by omega) hy (by omega)

theorem Inv.finish {l : Nat} {vs : List Nat} (h : Inv c s) : Inv c (finish c s l vs) := by
  unfold UndoFlush.finish
  split
  case isFalse => exact h
  rename_i hm
  obtain ⟨hl, hk⟩ := h
  obtain ⟨o1, o2, o3⟩ := hl.open1 l _ hm
  have hsz : vs.length ≤ c.size := by
    have h1 : s.written / c.page * c.page ≤ s.written := Nat.div_mul_le_self ..
    have := hl.win
    omega
  have her : ∀ {r : Nat × Nat}, r ∈ s.opened.erase (l, vs.length) → r ∈ s.opened :=
    fun h => List.mem_of_mem_erase h
  have hdisj : ∀ l' n, (l', n) ∈ s.opened.erase (l, vs.length) →
      l + vs.length ≤ l' ∨ l' + n ≤ l := by
    intro l' n h
    have hp := hl.openDisj
    have hperm := List.perm_cons_erase hm
    have := (hperm.pairwise_iff (fun h => Or.symm h)).1 hp
    exact (List.pairwise_cons.1 this).1 (l', n) h
  have hdone : ∀ x, (decide (l ≤ x ∧ x < l + vs.length) || s.done x) = true →
      (l ≤ x ∧ x < l + vs.length) ∨ ¬ (l ≤ x ∧ x < l + vs.length) ∧ s.done x = true := by
    intro x hx
    by_cases h : l ≤ x ∧ x < l + vs.length
    · exact .inl h
    · rw [decide_eq_false h, Bool.false_or] at hx; exact .inr ⟨h, hx⟩
  have hring : ∀ x, ¬ (l ≤ x ∧ x < l + vs.length) → s.written ≤ x → x < s.used →
      ringStore c s.ring l vs (x % c.size) = s.ring (x % c.size) := by
    intro x h1 h2 h3
    refine ringStore_out fun z hz hz' he => ?_
    have := hl.slot (by omega) (by omega) h2 h3 he
    omega
  refine ⟨?_, ?_⟩
  · constructor <;> dsimp only
    · exact hl.wu
    · exact hl.lu
    · exact hl.win
    · exact fun l' n h => hl.open1 l' n (her h)
    · exact fun l' n h => hl.openBit l' n (her h)
    · intro l' n h x h1 h2
      have := hdisj l' n h
      rw [hl.openDone l' n (her h) x h1 h2, decide_eq_false (by omega)]; rfl
    · exact hl.openDisj.sublist List.erase_sublist
    · intro x hx
      rcases hdone x hx with h | h
      · omega
      · exact hl.doneU x h.2
    · intro x hx hw
      rcases hdone x hx with h | h
      · rw [ringStore_in h.1 h.2 hsz, store, if_pos h]
      · rw [hring x h.1 hw (hl.doneU x h.2), store, if_neg h.1]; exact hl.ringV x h.2 hw
    · intro x hx hw
      rcases hdone x hx with h | h
      · exact .inr (hl.openBit l _ hm x h.1 h.2)
      · rw [store, if_neg h.1]; exact hl.ringM x h.2 hw
    · intro x hx h1 h2
      rcases hdone x hx with h | h
      · omega
      · rw [store, if_neg h.1]; exact hl.fileV x h.2 h1 h2
    · intro x hx h1 h2
      rcases hdone x hx with h | h
      · omega
      · exact hl.fileM x h.2 h1 h2
    · exact hl.tail
    · intro x hx h1 h2 h3
      rcases hdone x hx with h | h
      · omega
      · exact hl.strad x h.2 h1 h2 h3
  · dsimp only
    cases hs : s.ck with
    | idle => trivial
    | wait lo hi => rw [hs] at hk; exact hk
    | flush lo hi m pg k =>
      rw [hs] at hk
      obtain ⟨h1, h2, h3, h4, h5, h6⟩ := hk
      have := h4 l _ hm
      refine ⟨h1, h2, h3, fun l n hm => h4 l n (her hm), h5, fun x hx h8 h9 => ?_⟩
      rcases hdone x hx with h | h
      · omega
      · dsimp only
        rw [store, if_neg h.1, if_neg h.1]
        exact h6 x h.2 h8 h9
    | sync lo hi pg k =>
      rw [hs] at hk
      obtain ⟨h1, h2, h4, h6⟩ := hk
      have := h4 l _ hm
      refine ⟨h1, h2, fun l n hm => h4 l n (her hm), fun x hx h8 h9 => ?_⟩
      rcases hdone x hx with h | h
      · omega
      · dsimp only
        rw [store, if_neg h.1, if_neg h.1]
        exact h6 x h.2 h8 h9
    | done lo hi =>
      rw [hs] at hk
      obtain ⟨h4, h2, h6⟩ := hk
      have := h4 l _ hm
      refine ⟨fun l n hm => h4 l n (her hm), h2, fun x hx h8 h9 => ?_⟩
      rcases hdone x hx with h | h
      · omega
      · dsimp only
        rw [store, if_neg h.1, if_neg h.1]
        exact h6 x h.2 h8 h9

theorem mem_upd_seen {f : Nat → List Nat} {a b u v : Nat} (h : b = a ∨ u ∈ f b)
    (hv : b = a → u = v ∨ u ∈ f b) :
    u ∈ upd f a (v :: f a) b := by
  unfold upd
  split
  · rename_i e; subst e
    rcases hv rfl with h | h
    · rw [h]; exact .head _
    · exact .tail _ h
  · rename_i e; exact h.resolve_left e

theorem upd_bit {f : Nat → Bool} {a b : Nat} (h : f b = true) : upd f a true b = true := by
  unfold upd; split
  · rfl
  · exact h

theorem Inv.write {y v : Nat} (h : Inv c s) (hc : calmStep c s (.write y v)) :
    Inv c (write c s y v) := by
  have hc : y < s.written → y < s.written / c.page * c.page := hc
  unfold UndoFlush.write
  split
  case isFalse => exact h
  rename_i hg
  obtain ⟨hl, hk⟩ := h
  have hyu := hl.doneU y hg.1
  split
  · rename_i hw
    have hring : ∀ x, s.done x = true → s.written ≤ x → x ≠ y →
        upd s.ring (y % c.size) v (x % c.size) = s.ring (x % c.size) := by
      intro x h1 h2 h3
      exact upd_other _ _ fun he => h3 (hl.slot h2 (hl.doneU x h1) hw hyu he)
    refine ⟨?_, ?_⟩
    · constructor <;> dsimp only
      · exact hl.wu
      · exact hl.lu
      · exact hl.win
      · exact hl.open1
      · exact fun l n h x h1 h2 => upd_bit (hl.openBit l n h x h1 h2)
      · exact hl.openDone
      · exact hl.openDisj
      · exact hl.doneU
      · intro x h1 h2
        by_cases hx : x = y
        · subst hx; rw [upd_same, upd_same]
        · rw [hring x h1 h2 hx, upd_other _ _ hx]; exact hl.ringV x h1 h2
      · intro x h1 h2
        by_cases hx : x = y
        · subst hx; exact .inr (upd_same ..)
        · rw [upd_other _ v hx]; exact (hl.ringM x h1 h2).imp_right upd_bit
      · intro x h1 h2 h3
        rw [upd_other _ _ (by omega)]; exact hl.fileV x h1 h2 h3
      · exact hl.fileM
      · exact hl.tail
      · exact fun x h1 h2 h3 h4 => (hl.strad x h1 h2 h3 h4).imp_right upd_bit
    · have hval : ∀ x, s.val x ∈ s.seen x → upd s.val y v x ∈ upd s.seen y (v :: s.seen y) x := by
        intro x hx
        by_cases h : x = y
        · subst h; rw [upd_same, upd_same]; exact .head _
        · rw [upd_other _ _ h, upd_other _ _ h]; exact hx
      have hin : ∀ x u, u ∈ s.seen x → u ∈ upd s.seen y (v :: s.seen y) x :=
        fun x u hu => mem_upd_seen (.inr hu) fun _ => .inr hu
      dsimp only
      cases hs : s.ck with
      | idle => trivial
      | wait lo hi => rw [hs] at hk; exact hk
      | flush lo hi m pg k =>
        rw [hs] at hk
        obtain ⟨h1, h2, h3, h4, h5, h6⟩ := hk
        refine ⟨h1, h2, h3, h4, h5, fun x a1 a2 a3 => ?_⟩
        obtain ⟨b1, b2, b3⟩ := h6 x a1 a2 a3
        exact ⟨hval x b1, fun h => (b2 h).imp_left (hin _ _),
          fun h => ⟨(b3 h).1, fun h' => hin _ _ ((b3 h).2 h')⟩⟩
      | sync lo hi pg k =>
        rw [hs] at hk
        obtain ⟨h1, h2, h4, h6⟩ := hk
        refine ⟨h1, h2, h4, fun x a1 a2 a3 => ?_⟩
        obtain ⟨b1, b2⟩ := h6 x a1 a2 a3
        exact ⟨hval x b1, b2.imp_left (hin _ _)⟩
      | done lo hi =>
        rw [hs] at hk
        obtain ⟨h1, h2, h4⟩ := hk
        refine ⟨h1, h2, fun x a1 a2 a3 => ?_⟩
        obtain ⟨b1, b2, b3⟩ := h4 x a1 a2 a3
        exact ⟨hval x b1, hin _ _ b2, hin _ _ b3⟩
  · rename_i hw
    have hw : y < s.written := by omega
    have hc := hc hw
    refine ⟨?_, ?_⟩
    · constructor <;> dsimp only
      · exact hl.wu
      · exact hl.lu
      · exact hl.win
      · exact hl.open1
      · exact hl.openBit
      · exact hl.openDone
      · exact hl.openDisj
      · exact hl.doneU
      · intro x h1 h2
        rw [upd_other _ _ (by omega)]; exact hl.ringV x h1 h2
      · intro x h1 h2
        rw [upd_other _ _ (by omega)]; exact hl.ringM x h1 h2
      · intro x h1 h2 h3
        by_cases hx : x = y
        · subst hx; rw [upd_same, upd_same]
        · rw [upd_other _ _ hx, upd_other _ _ hx]; exact hl.fileV x h1 h2 h3
      · intro x h1 h2 h3
        by_cases hx : x = y
        · subst hx; exact .inr (upd_same ..)
        · rw [upd_other _ v hx]; exact (hl.fileM x h1 h2 h3).imp_right upd_bit
      · intro x h1
        rw [upd_other _ _ (by omega)]; exact hl.tail x h1
      · intro x h1 h2 h3 h4
        have hx : x ≠ y := by
          intro e; subst e
          have := page_lt.2 hc
          omega
        rw [upd_other _ _ hx]; exact hl.strad x h1 h2 h3 h4
    · have hval : ∀ x, s.val x ∈ s.seen x → upd s.val y v x ∈ upd s.seen y (v :: s.seen y) x := by
        intro x hx
        by_cases h : x = y
        · subst h; rw [upd_same, upd_same]; exact .head _
        · rw [upd_other _ _ h, upd_other _ _ h]; exact hx
      have hin : ∀ x u, u ∈ s.seen x → u ∈ upd s.seen y (v :: s.seen y) x :=
        fun x u hu => mem_upd_seen (.inr hu) fun _ => .inr hu
      dsimp only
      cases hs : s.ck with
      | idle => trivial
      | wait lo hi => rw [hs] at hk; exact hk
      | flush lo hi m pg k =>
        rw [hs] at hk
        obtain ⟨h1, h2, h3, h4, h5, h6⟩ := hk
        refine ⟨h1, h2, h3, h4, h5, fun x a1 a2 a3 => ?_⟩
        obtain ⟨b1, b2, b3⟩ := h6 x a1 a2 a3
        exact ⟨hval x b1, fun h => (b2 h).imp (hin _ _) upd_bit,
          fun h => ⟨(b3 h).1, fun h' => hin _ _ ((b3 h).2 h')⟩⟩
      | sync lo hi pg k =>
        rw [hs] at hk
        obtain ⟨h1, h2, h4, h6⟩ := hk
        refine ⟨h1, h2, h4, fun x a1 a2 a3 => ?_⟩
        obtain ⟨b1, b2⟩ := h6 x a1 a2 a3
        exact ⟨hval x b1, b2.imp (hin _ _) fun ⟨d1, d2, d3⟩ => ⟨d1, upd_bit d2, d3⟩⟩
      | done lo hi =>
        rw [hs] at hk
        obtain ⟨h1, h2, h4⟩ := hk
        refine ⟨h1, h2, fun x a1 a2 a3 => ?_⟩
        obtain ⟨b1, b2, b3⟩ := h4 x a1 a2 a3
        refine ⟨hval x b1, hin _ _ b2, ?_⟩
        dsimp only
        by_cases hx : x = y
        · subst hx; rw [upd_same, upd_same]; exact .head _
        · rw [upd_other s.file _ hx]; exact hin _ _ b3

theorem Inv.skip (h : Inv c s) : Inv c (skip s) := by
  unfold UndoFlush.skip
  split
  case isFalse => exact h
  rename_i hg
  obtain ⟨hl, hk⟩ := h
  refine ⟨?_, ?_⟩
  · constructor <;> dsimp only
    · exact hl.lu
    · exact hl.lu
    · have := hl.win
      have h1 : s.written / c.page * c.page ≤ s.low / c.page * c.page :=
        Nat.mul_le_mul_right _ (page_mono (Nat.le_of_lt hg))
      omega
    · intro l n h; have := hl.open1 l n h; omega
    · exact hl.openBit
    · exact hl.openDone
    · exact hl.openDisj
    · exact hl.doneU
    · exact fun x h1 h2 => hl.ringV x h1 (by omega)
    · exact fun x h1 h2 => hl.ringM x h1 (by omega)
    · exact fun x h1 h2 h3 => by omega
    · exact fun x h1 h2 h3 => by omega
    · exact fun x h1 => hl.tail x (by omega)
    · exact fun x h1 h2 h3 => by omega
  · dsimp only
    cases hs : s.ck with
    | idle => trivial
    | wait lo hi => rw [hs] at hk; exact hk
    | flush lo hi m pg k =>
      rw [hs] at hk
      obtain ⟨h1, h2, h3, h4, h5, h6⟩ := hk
      refine ⟨h1, h2, h3, h4, h5, fun x a1 a2 a3 => ?_⟩
      obtain ⟨b1, b2, b3⟩ := h6 x a1 a2 a3
      refine ⟨b1, fun h => ?_, fun h => b3 ?_⟩ <;> dsimp only at h <;> omega
    | sync lo hi pg k =>
      rw [hs] at hk
      obtain ⟨h1, h2, h4, h6⟩ := hk
      refine ⟨h1, h2, h4, fun x a1 a2 a3 => ?_⟩
      obtain ⟨b1, b2⟩ := h6 x a1 a2 a3
      exact ⟨b1, b2.imp_right fun ⟨d1, d2⟩ => ⟨Nat.lt_trans d1 hg, d2⟩⟩
    | done lo hi => rw [hs] at hk; exact hk

theorem Inv.raise {l : Nat} (h : Inv c s) : Inv c (raise s l) := by
  unfold UndoFlush.raise
  split
  case isFalse => exact h
  rename_i hg
  obtain ⟨g1, g2, g3, g4⟩ := hg
  have g3 : ∀ l' n, (l', n) ∈ s.opened → l ≤ l' := fun l' n hm => by
    have := List.all_eq_true.1 g3 _ hm; simpa using this
  obtain ⟨hl, hk⟩ := h
  refine ⟨?_, ?_⟩
  · constructor <;> dsimp only
    · exact hl.wu
    · exact g2
    · exact hl.win
    · intro l n h; have := hl.open1 l n h; have := g3 l n h; omega
    · exact hl.openBit
    · exact hl.openDone
    · exact hl.openDisj
    · exact hl.doneU
    · exact hl.ringV
    · exact hl.ringM
    · exact fun x h1 h2 h3 => hl.fileV x h1 (by omega) h3
    · exact fun x h1 h2 h3 => hl.fileM x h1 (by omega) h3
    · exact hl.tail
    · exact fun x h1 h2 h3 => hl.strad x h1 (by omega) h3
  · dsimp only
    cases hs : s.ck with
    | idle => trivial
    | wait lo hi =>
      rw [hs] at hk g4
      simp [Ck.lo] at g4
      exact ⟨g4, hk.2⟩
    | flush lo hi m pg k =>
      rw [hs] at hk g4
      simp [Ck.lo] at g4
      exact ⟨g4, hk.2⟩
    | sync lo hi pg k =>
      rw [hs] at hk g4
      simp [Ck.lo] at g4
      exact ⟨g4, hk.2⟩
    | done lo hi => rw [hs] at hk; exact hk

/-! ## Steps of the file -/

theorem Inv.writeBack {p : Nat} (h : Inv c s) : Inv c (writeBack c s p) := by
  unfold UndoFlush.writeBack
  split
  case isFalse => exact h
  obtain ⟨hl, hk⟩ := h
  refine ⟨?_, ?_⟩
  · constructor <;> dsimp only
    · exact hl.wu
    · exact hl.lu
    · exact hl.win
    · exact hl.open1
    · exact hl.openBit
    · exact hl.openDone
    · exact hl.openDisj
    · exact hl.doneU
    · exact hl.ringV
    · intro x h1 h2
      have : (if x / c.page = p then s.file x else s.disk x) = s.disk x := by
        rw [hl.tail x h2, ite_self]
      rw [this]; exact hl.ringM x h1 h2
    · exact hl.fileV
    · intro x h1 h2 h3
      by_cases hx : x / c.page = p
      · rw [if_pos hx]; exact .inl rfl
      · rw [if_neg hx, upd_other _ _ hx]; exact hl.fileM x h1 h2 h3
    · intro x h1; rw [hl.tail x h1, ite_self]
    · intro x h1 h2 h3 h4
      by_cases hx : x / c.page = p
      · rw [if_pos hx]; exact .inl rfl
      · rw [if_neg hx]; exact hl.strad x h1 h2 h3 h4
  · dsimp only
    cases hs : s.ck with
    | idle => trivial
    | wait lo hi => rw [hs] at hk; exact hk
    | flush lo hi m pg k =>
      rw [hs] at hk
      obtain ⟨h1, h2, h3, h4, h5, h6⟩ := hk
      refine ⟨h1, h2, h3, h4, h5, fun x a1 a2 a3 => ?_⟩
      obtain ⟨b1, b2, b3⟩ := h6 x a1 a2 a3
      refine ⟨b1, fun h => ?_, fun h => ?_⟩ <;> dsimp only
      · by_cases hx : x / c.page = p
        · rw [if_pos hx, hl.fileV x a1 (by omega) h]; exact .inl b1
        · rw [if_neg hx, upd_other _ _ hx]; exact b2 h
      · rw [hl.tail x h, ite_self]; exact b3 h
    | sync lo hi pg k =>
      rw [hs] at hk
      obtain ⟨h1, h2, h4, h6⟩ := hk
      refine ⟨h1, h2, h4, fun x a1 a2 a3 => ?_⟩
      obtain ⟨b1, b2⟩ := h6 x a1 a2 a3
      refine ⟨b1, ?_⟩
      dsimp only
      by_cases h : s.written ≤ x
      · rw [hl.tail x h, ite_self]
        rcases b2 with b2 | b2
        · exact .inl b2
        · omega
      · by_cases hx : x / c.page = p
        · rw [if_pos hx, hl.fileV x a1 (by omega) (by omega)]; exact .inl b1
        · rw [if_neg hx, upd_other _ _ hx]; exact b2
    | done lo hi =>
      rw [hs] at hk
      obtain ⟨h1, h2, h4⟩ := hk
      refine ⟨h1, h2, fun x a1 a2 a3 => ?_⟩
      obtain ⟨b1, b2, b3⟩ := h4 x a1 a2 a3
      refine ⟨b1, ?_, b3⟩
      dsimp only
      split
      · exact b3
      · exact b2

theorem Inv.forget {p : Nat} (h : Inv c s) : Inv c (forget c s p) := by
  unfold UndoFlush.forget
  split
  case isFalse => exact h
  rename_i hg
  obtain ⟨hl, hk⟩ := h
  have hfile : ∀ x, s.done x = true → s.low ≤ x → x < s.written →
      (if x / c.page = p then s.disk x else s.file x) = s.file x := by
    intro x h1 h2 h3
    split
    · rename_i hx
      rcases hl.fileM x h1 h2 h3 with h | h
      · exact h
      · rw [hx, hg] at h; cases h
    · rfl
  refine ⟨?_, ?_⟩
  · constructor <;> dsimp only
    · exact hl.wu
    · exact hl.lu
    · exact hl.win
    · exact hl.open1
    · exact hl.openBit
    · exact hl.openDone
    · exact hl.openDisj
    · exact hl.doneU
    · exact hl.ringV
    · exact hl.ringM
    · intro x h1 h2 h3; rw [hfile x h1 h2 h3]; exact hl.fileV x h1 h2 h3
    · intro x h1 h2 h3; rw [hfile x h1 h2 h3]; exact hl.fileM x h1 h2 h3
    · intro x h1; rw [hl.tail x h1, ite_self]
    · intro x h1 h2 h3 h4; rw [hfile x h1 h2 h3]; exact hl.strad x h1 h2 h3 h4
  · dsimp only
    cases hs : s.ck with
    | idle => trivial
    | wait lo hi => rw [hs] at hk; exact hk
    | flush lo hi m pg k => rw [hs] at hk; exact hk
    | sync lo hi pg k => rw [hs] at hk; exact hk
    | done lo hi =>
      rw [hs] at hk
      obtain ⟨h1, h2, h4⟩ := hk
      refine ⟨h1, h2, fun x a1 a2 a3 => ?_⟩
      obtain ⟨b1, b2, b3⟩ := h4 x a1 a2 a3
      refine ⟨b1, b2, ?_⟩
      dsimp only
      split
      · exact b2
      · exact b3

/-- The page of a location in the window. -/
theorem Log.pageIn (h : Log c s) {x : Nat} (h1 : s.written ≤ x) (h2 : x < s.used) :
    s.written / c.page ≤ x / c.page ∧ x / c.page < s.written / c.page + c.pages := by
  have := h.win
  exact ⟨page_mono h1, win_page (by omega)⟩

theorem Inv.evict {t : Nat} (h : Inv c s) : Inv c (evict c s t) := by
  unfold UndoFlush.evict
  split
  case isFalse => exact h
  rename_i hg
  obtain ⟨g1, g2, g3, g4, g5⟩ := hg
  have g5 : ∀ l n, (l, n) ∈ s.opened → t ≤ l := fun l n hm => by
    have := List.all_eq_true.1 g5 _ hm; simpa using this
  obtain ⟨hl, hk⟩ := h
  have hp0 := c.hpages
  -- the page of the piece
  have hpc : ∀ x, s.written ≤ x → x < t → x / c.page = s.written / c.page := by
    intro x h1 h2
    have h3 := page_mono (c := c) h1
    have h4 : x / c.page < s.written / c.page + 1 := page_lt.2 (by omega)
    omega
  have hidx : ∀ x, x / c.page = s.written / c.page → c.index x = c.index s.written := by
    intro x h; rw [c.index_of, c.index_of, h]
  -- bits that remain
  have hbit : ∀ x, t ≤ x → x < s.used → s.bits (c.index x) = true →
      (if s.written % c.page = 0 ∧ t = (s.written / c.page + 1) * c.page then
        upd s.bits (c.index s.written) false else s.bits) (c.index x) = true := by
    intro x h1 h2 h3
    split
    · rename_i hf
      rw [upd_other _ _ ?_]
      · exact h3
      intro he
      have ⟨i1, i2⟩ := hl.pageIn (x := x) (by omega) h2
      have := bit_page (x := x) (p := s.written / c.page) (w := s.written / c.page)
        (by rw [he, c.index_of]) i1 i2 (by omega) (by omega)
      have h6 : s.written / c.page + 1 ≤ x / c.page := page_le.2 (by omega)
      omega
    · exact h3
  have hdisk : ∀ x, s.done x = true → s.low ≤ x → x < t → x / c.page = s.written / c.page →
      s.disk x = s.val x ∨ s.bits (c.index s.written) = true := by
    intro x h1 h2 h3 h4
    by_cases hx : x < s.written
    · rcases hl.strad x h1 h2 hx h4 with h | h
      · rw [h, hl.fileV x h1 h2 hx]; exact .inl rfl
      · rw [hidx x h4] at h; exact .inr h
    · rcases hl.ringM x h1 (by omega) with h | h
      · exact .inl h
      · rw [hidx x h4] at h; exact .inr h
  refine ⟨?_, ?_⟩
  · constructor <;> dsimp only
    · exact g3
    · exact hl.lu
    · have := hl.win
      have h1 : s.written / c.page * c.page ≤ t / c.page * c.page :=
        Nat.mul_le_mul_right _ (page_mono (Nat.le_of_lt g2))
      omega
    · intro l n h; have := hl.open1 l n h; have := g5 l n h; omega
    · intro l n h x h1 h2
      have := hl.open1 l n h; have := g5 l n h
      exact hbit x (by omega) (by omega) (hl.openBit l n h x h1 h2)
    · exact hl.openDone
    · exact hl.openDisj
    · exact hl.doneU
    · exact fun x h1 h2 => hl.ringV x h1 (by omega)
    · intro x h1 h2
      exact (hl.ringM x h1 (by omega)).imp_right (hbit x h2 (hl.doneU x h1))
    · intro x h1 h2 h3
      split
      · exact hl.ringV x h1 (by omega)
      · exact hl.fileV x h1 h2 (by omega)
    · intro x h1 h2 h3
      by_cases hx : x / c.page = s.written / c.page
      · rw [hx, upd_same]
        refine (hdisk x h1 h2 h3 hx).imp_left fun h => ?_
        rw [h]
        split
        · exact (hl.ringV x h1 (by omega)).symm
        · exact (hl.fileV x h1 h2 (by omega)).symm
      · rw [upd_other _ _ hx]
        have : ¬ (s.written ≤ x ∧ x < t) := fun h => hx (hpc x h.1 h.2)
        rw [if_neg this]
        exact hl.fileM x h1 h2 (by omega)
    · intro x h1; rw [if_neg (by omega)]; exact hl.tail x (by omega)
    · intro x h1 h2 h3 h4
      have hx : x / c.page = s.written / c.page := by
        have i1 := page_mono (c := c) (Nat.le_of_lt g2)
        by_cases h : s.written ≤ x
        · exact hpc x h h3
        · have := page_mono (c := c) (Nat.le_of_lt (Nat.lt_of_not_le h)); omega
      have hnf : ¬ (s.written % c.page = 0 ∧ t = (s.written / c.page + 1) * c.page) := by
        intro hf
        have := page_le (c := c).2 (Nat.le_of_eq hf.2.symm)
        omega
      rw [if_neg hnf, hidx x hx]
      refine (hdisk x h1 h2 h3 hx).imp_left fun h => ?_
      rw [h]
      split
      · exact (hl.ringV x h1 (by omega)).symm
      · exact (hl.fileV x h1 h2 (by omega)).symm
  · dsimp only
    cases hs : s.ck with
    | idle => trivial
    | wait lo hi => rw [hs] at hk; exact hk
    | flush lo hi m pg k =>
      rw [hs] at hk
      obtain ⟨h1, h2, h3, h4, h5, h6⟩ := hk
      refine ⟨h1, h2, h3, h4, h5, fun x a1 a2 a3 => ?_⟩
      obtain ⟨b1, b2, b3⟩ := h6 x a1 a2 a3
      refine ⟨b1, fun h => ?_, fun h => b3 (by dsimp only at h; omega)⟩
      dsimp only at h ⊢
      by_cases hx : x / c.page = s.written / c.page
      · rw [hx, upd_same]
        exact (hdisk x a1 (by omega) h hx).imp_left fun h => by rw [h]; exact b1
      · rw [upd_other _ _ hx]
        refine b2 (Nat.lt_of_not_le fun h' => hx (hpc x h' h))
    | sync lo hi pg k =>
      rw [hs] at hk
      obtain ⟨h1, h2, h4, h6⟩ := hk
      refine ⟨h1, h2, h4, fun x a1 a2 a3 => ?_⟩
      obtain ⟨b1, b2⟩ := h6 x a1 a2 a3
      refine ⟨b1, ?_⟩
      dsimp only
      rcases b2 with b2 | ⟨b2, b3, b4⟩
      · exact .inl b2
      · by_cases hx : x / c.page = s.written / c.page
        · rcases hdisk x a1 (by omega) (by omega) hx with h | h
          · rw [h]; exact .inl b1
          · refine .inr ⟨by omega, ?_, b4⟩
            rw [hx, upd_same]; exact h
        · rw [upd_other _ _ hx]; exact .inr ⟨by omega, b3, b4⟩
    | done lo hi =>
      rw [hs] at hk
      obtain ⟨h1, h2, h4⟩ := hk
      refine ⟨h1, h2, fun x a1 a2 a3 => ?_⟩
      obtain ⟨b1, b2, b3⟩ := h4 x a1 a2 a3
      refine ⟨b1, b2, ?_⟩
      dsimp only
      split
      · rw [hl.ringV x a1 (by omega)]; exact b1
      · exact b3

/-! ## Steps of the checkpointer -/

theorem Inv.ckRead {lo : Nat} (h : Inv c s) : Inv c (ckRead s lo) := by
  obtain ⟨hl, hk⟩ := h
  have key : s.low ≤ lo ∧ lo ≤ s.used → Inv c { s with ck := .wait lo s.used } := by
    intro hg
    exact ⟨⟨hl.wu, hl.lu, hl.win, hl.open1, hl.openBit, hl.openDone, hl.openDisj, hl.doneU,
      hl.ringV, hl.ringM, hl.fileV, hl.fileM, hl.tail, hl.strad⟩, hg.1, hg.2, Nat.le_refl _⟩
  unfold UndoFlush.ckRead
  split
  · split
    · rename_i hg; exact key hg
    · exact ⟨hl, hk⟩
  · split
    · rename_i hg; exact key hg
    · exact ⟨hl, hk⟩
  · exact ⟨hl, hk⟩

theorem Inv.ckFlush {m : Nat} (h : Inv c s) : Inv c (ckFlush c s m) := by
  unfold UndoFlush.ckFlush
  split
  case h_2 => exact h
  rename_i lo hi hs
  split
  case isFalse => exact h
  rename_i hg
  obtain ⟨hl, hk⟩ := h
  rw [hs] at hk
  obtain ⟨k1, k2, k3⟩ := hk
  refine ⟨⟨hl.wu, hl.lu, hl.win, hl.open1, hl.openBit, hl.openDone, hl.openDisj, hl.doneU,
      hl.ringV, hl.ringM, hl.fileV, hl.fileM, hl.tail, hl.strad⟩, ?_⟩
  have hp := c.hpage
  have hceil : ∀ p, p < (hi + c.page - 1) / c.page → p * c.page < hi := by
    intro p h
    have h1 := (page_le (c := c) (x := hi + c.page - 1) (p := p + 1)).1 h
    rw [Nat.add_mul] at h1
    omega
  dsimp only
  generalize hfirst : max lo s.written / c.page = first
  generalize hn : (hi + c.page - 1) / c.page - first = n
  generalize hkk : (if hi ≤ max lo s.written then 0
    else if n * c.page > c.size then c.pages else n) = k
  have hkn : k ≤ n ∧ (k = n ∨ k = c.pages ∨ hi ≤ max lo s.written) := by
    rw [← hkk]
    split
    · exact ⟨Nat.zero_le _, .inr (.inr (by assumption))⟩
    · split
      · rename_i h1
        refine ⟨?_, .inr (.inl rfl)⟩
        have : c.pages * c.page < n * c.page := by
          have : c.pages * c.page = c.size := Nat.mul_comm ..
          omega
        exact Nat.le_of_lt (Nat.lt_of_mul_lt_mul_right this)
      · exact ⟨Nat.le_refl _, .inl rfl⟩
  have hfw : s.written / c.page ≤ first := by rw [← hfirst]; exact page_mono (Nat.le_max_right ..)
  refine ⟨k1, k3, hg.1, fun l n hm => ?_, fun h => hceil _ (by omega), fun x a1 a2 a3 => ?_⟩
  · have := List.all_eq_true.1 hg.2 _ hm; simpa using this
  · dsimp only
    refine ⟨.head _, fun h => ?_, fun h => ⟨?_, fun h' => ?_⟩⟩
    · rcases hl.fileM x a1 (by omega) h with h' | h'
      · rw [h', hl.fileV x a1 (by omega) h]; exact .inl (.head _)
      · exact .inr h'
    · have hm : max lo s.written ≤ x := Nat.max_le.2 ⟨a2, h⟩
      rcases hkn.2 with h1 | h1 | h1
      · have h2 : x / c.page < (hi + c.page - 1) / c.page := by
          apply Nat.lt_of_lt_of_le (Nat.lt_succ_self _)
          rw [page_le, Nat.succ_mul]
          have := Nat.div_mul_le_self x c.page
          omega
        omega
      · have := hl.pageIn h (hl.doneU x a1)
        omega
      · omega
    · have := page_mono (c := c) (x := max lo s.written) (y := x) (Nat.max_le.2 ⟨a2, h⟩)
      omega

/-- A page being written leaves the log as it is. -/
theorem Log.writePage {p : Nat} (hl : Log c s) (bits : Nat → Bool)
    (hbo : ∀ l n, (l, n) ∈ s.opened → ∀ x, l ≤ x → x < l + n → bits (c.index x) = true)
    (hbk : ∀ x, s.done x = true → x / c.page ≠ p → s.written / c.page ≤ x / c.page →
      s.bits (c.index x) = true → bits (c.index x) = true) :
    Log c (writePage c { s with bits := bits } p) := by
  have hst : ∀ x, staged c { s with bits := bits } x
      = if x < s.written then s.file x else s.ring (x % c.size) := fun _ => rfl
  unfold UndoFlush.writePage
  constructor <;> dsimp only
  · exact hl.wu
  · exact hl.lu
  · exact hl.win
  · exact hl.open1
  · exact hbo
  · exact hl.openDone
  · exact hl.openDisj
  · exact hl.doneU
  · exact hl.ringV
  · intro x h1 h2
    by_cases hx : x / c.page = p
    · rw [if_pos hx, hst, if_neg (by omega)]; exact .inl (hl.ringV x h1 h2)
    · rw [if_neg hx]
      exact (hl.ringM x h1 h2).imp_right (hbk x h1 hx (page_mono h2))
  · intro x h1 h2 h3
    by_cases hx : x / c.page = p
    · rw [if_pos hx, hst, if_pos h3]; exact hl.fileV x h1 h2 h3
    · rw [if_neg hx]; exact hl.fileV x h1 h2 h3
  · intro x h1 h2 h3
    by_cases hx : x / c.page = p
    · rw [if_pos hx, if_pos hx]; exact .inl rfl
    · rw [if_neg hx, if_neg hx, upd_other _ _ hx]; exact hl.fileM x h1 h2 h3
  · intro x h1
    by_cases hx : x / c.page = p
    · rw [if_pos hx, if_pos hx]
    · rw [if_neg hx, if_neg hx]; exact hl.tail x h1
  · intro x h1 h2 h3 h4
    by_cases hx : x / c.page = p
    · rw [if_pos hx, if_pos hx]; exact .inl rfl
    · rw [if_neg hx, if_neg hx]
      exact (hl.strad x h1 h2 h3 h4).imp_right (hbk x h1 hx (by omega))

theorem Log.setCk (hl : Log c s) (k : Ck) : Log c { s with ck := k } :=
  ⟨hl.wu, hl.lu, hl.win, hl.open1, hl.openBit, hl.openDone, hl.openDisj, hl.doneU,
    hl.ringV, hl.ringM, hl.fileV, hl.fileM, hl.tail, hl.strad⟩

/-- What a page of the flush does. -/
structure FlushPage (c : Cfg) (s s' : St) (p : Nat) : Prop where
  log : Log c s'
  low : s'.low = s.low
  used : s'.used = s.used
  written : s'.written = s.written
  opened : s'.opened = s.opened
  done : s'.done = s.done
  val : s'.val = s.val
  seen : s'.seen = s.seen
  other : ∀ x, x / c.page ≠ p →
    s'.disk x = s.disk x ∧ s'.fdirty (x / c.page) = s.fdirty (x / c.page)
  same : ∀ x, s.done x = true → s.low ≤ x → x / c.page = p →
    (s.written ≤ x → s'.disk x = s.val x) ∧
    (x < s.written → s'.disk x = s.val x ∨
      s'.disk x = s.disk x ∧ s'.fdirty (x / c.page) = s.fdirty (x / c.page))

theorem FlushPage.wrote {p : Nat} {bits : Nat → Bool} (hl : Log c s)
    (h : Log c (UndoFlush.writePage c { s with bits := bits } p)) :
    FlushPage c s (UndoFlush.writePage c { s with bits := bits } p) p where
  log := h
  low := rfl
  used := rfl
  written := rfl
  opened := rfl
  done := rfl
  val := rfl
  seen := rfl
  other := fun x hx => ⟨if_neg hx, upd_other _ _ hx⟩
  same := fun x h1 h2 hx => by
    have hd : (UndoFlush.writePage c { s with bits := bits } p).disk x
        = if x < s.written then s.file x else s.ring (x % c.size) := if_pos hx
    refine ⟨fun h => ?_, fun h => .inl ?_⟩
    · rw [hd, if_neg (by omega)]; exact hl.ringV x h1 h
    · rw [hd, if_pos h]; exact hl.fileV x h1 h2 h

theorem flushPage_spec {m p : Nat} (hl : Log c s) (hm : ∀ l n, (l, n) ∈ s.opened → m ≤ l)
    (hp : p * c.page < s.used) : FlushPage c s (flushPage c s m p) p := by
  unfold flushPage
  split
  · rename_i hw
    exact ⟨hl, rfl, rfl, rfl, rfl, rfl, rfl, rfl, fun _ _ => ⟨rfl, rfl⟩, fun x h1 h2 hx =>
      ⟨fun h => by
        have : x / c.page < p + 1 := by omega
        have := page_lt.1 this
        omega, fun _ => .inr ⟨rfl, rfl⟩⟩⟩
  · rename_i hw
    have hw1 : s.written / c.page ≤ p := by
      have : s.written / c.page < p + 1 := page_lt.2 (by omega)
      omega
    have hw2 : p < s.written / c.page + c.pages := by
      have := hl.win
      have := win_page (c := c) (x := p * c.page) (w := s.written / c.page) (by omega)
      rwa [Nat.mul_div_cancel _ c.hpage] at this
    split
    · rename_i hpm
      split
      · refine .wrote hl (hl.writePage _ ?_ ?_)
        · intro l n hln x h1 h2
          have h3 := hl.open1 l n hln
          have h4 := hm l n hln
          have ⟨i1, i2⟩ := hl.pageIn (x := x) (by omega) (by omega)
          rw [upd_other _ _ ?_]
          · exact hl.openBit l n hln x h1 h2
          · intro he
            rw [c.index_page] at he
            have h5 := bit_page he i1 i2 hw1 hw2
            have h6 : p + 1 ≤ x / c.page := page_le.2 (by omega)
            omega
        · intro x h1 h2 h3 h4
          rw [upd_other _ _ ?_]
          · exact h4
          · intro he
            rw [c.index_page] at he
            have := hl.win
            have := hl.doneU x h1
            exact h2 (bit_page he h3 (win_page (by omega)) hw1 hw2)
      · rename_i hb
        refine ⟨hl, rfl, rfl, rfl, rfl, rfl, rfl, rfl, fun _ _ => ⟨rfl, rfl⟩, fun x h1 h2 hx =>
          ⟨fun h => ?_, fun _ => .inr ⟨rfl, rfl⟩⟩⟩
        rcases hl.ringM x h1 h with h' | h'
        · exact h'
        · rw [c.index_of, hx] at h'
          rw [c.index_page] at hb
          exact absurd h' hb
    · exact .wrote (bits := s.bits) hl (hl.writePage _ hl.openBit fun _ _ _ _ h => h)

theorem Inv.ckGo (h : Inv c s) : Inv c (ckGo c s) := by
  unfold UndoFlush.ckGo
  split
  · rename_i lo hi m pg k hs
    obtain ⟨hl, hk⟩ := h
    rw [hs] at hk
    obtain ⟨h1, h2, h3, h4, h5, h6⟩ := hk
    have h5 : (pg + (k + 1) - 1) * c.page < hi := h5 (Nat.succ_pos k)
    have hpg : pg * c.page < s.used := by
      have : pg * c.page ≤ (pg + (k + 1) - 1) * c.page := Nat.mul_le_mul_right _ (by omega)
      omega
    have hf := flushPage_spec hl (fun l n h => (h4 l n h).1) hpg
    generalize flushPage c s m pg = s' at hf
    refine ⟨hf.log.setCk _, ?_⟩
    dsimp only
    refine ⟨by rw [← hf.low] at h1; exact h1, by rw [← hf.used] at h2; exact h2,
      by rw [← hf.used] at h3; exact h3, by rw [← hf.opened] at h4; exact h4,
      fun _ => by rw [show pg + 1 + k = pg + (k + 1) by omega]; exact h5,
      fun x a1 a2 a3 => ?_⟩
    dsimp only at a1 ⊢
    rw [hf.done] at a1
    rw [hf.val, hf.seen, hf.written]
    obtain ⟨b1, b2, b3⟩ := h6 x a1 a2 a3
    by_cases hx : x / c.page = pg
    · obtain ⟨d1, d2⟩ := hf.same x a1 (by omega) hx
      refine ⟨b1, fun h => ?_, fun h => ⟨by omega, fun _ => by rw [d1 h]; exact b1⟩⟩
      rcases d2 h with d | ⟨d, d'⟩
      · rw [d]; exact .inl b1
      · rw [d, d']; exact b2 h
    · obtain ⟨d1, d2⟩ := hf.other x hx
      rw [d1, d2]
      refine ⟨b1, b2, fun h => ⟨?_, fun h' => (b3 h).2 (by omega)⟩⟩
      have := (b3 h).1
      omega
  · rename_i lo hi m pg hs
    obtain ⟨hl, hk⟩ := h
    rw [hs] at hk
    obtain ⟨h1, h2, h3, h4, h5, h6⟩ := hk
    refine ⟨hl.setCk _, ?_⟩
    refine ⟨h1, h2, fun l n h => (h4 l n h).2, fun x a1 a2 a3 => ?_⟩
    dsimp only at a1 ⊢
    obtain ⟨b1, b2, b3⟩ := h6 x a1 a2 a3
    refine ⟨b1, ?_⟩
    by_cases h : x < s.written
    · refine (b2 h).imp_right fun h' => ⟨h, h', page_mono a2, ?_⟩
      have hx := page_mono (c := c) a2
      have h2 : x / c.page < (hi + c.page - 1) / c.page := by
        apply Nat.lt_of_lt_of_le (Nat.lt_succ_self _)
        rw [page_le, Nat.succ_mul]
        have := Nat.div_mul_le_self x c.page
        omega
      omega
    · have := b3 (by omega)
      exact .inl (this.2 (by omega))
  · rename_i lo hi pg k hs
    have hw := h.writeBack (p := pg)
    obtain ⟨hl, hk⟩ := h
    refine ⟨hw.log.setCk _, ?_⟩
    rw [hs] at hk
    obtain ⟨h1, h2, h4, h6⟩ := hk
    have key : ∀ s' : St, s'.low = s.low → s'.used = s.used → s'.opened = s.opened →
        s'.done = s.done → s'.val = s.val → s'.seen = s.seen → s'.written = s.written →
        (∀ x, s.done x = true → lo ≤ x → x < s.written → s'.disk x = s.val x ∨
          s'.disk x = s.disk x ∧
            (s.fdirty (x / c.page) = true → s'.fdirty (x / c.page) = true ∧ x / c.page ≠ pg)) →
        (∀ x, s.written ≤ x → s'.disk x = s.disk x) →
        CkOk c { s' with ck := .sync lo hi (pg + 1) k } (.sync lo hi (pg + 1) k) := by
      intro s' e1 e2 e3 e4 e5 e6 e7 e8 e9
      refine ⟨by rw [← e1] at h1; exact h1, by rw [← e2] at h2; exact h2,
        by rw [← e3] at h4; exact h4, fun x a1 a2 a3 => ?_⟩
      dsimp only at a1 ⊢
      rw [e4] at a1
      rw [e5, e6, e7]
      obtain ⟨b1, b2⟩ := h6 x a1 a2 a3
      refine ⟨b1, ?_⟩
      by_cases h : x < s.written
      · rcases e8 x a1 a2 h with d | ⟨d, d'⟩
        · rw [d]; exact .inl b1
        · rw [d]
          refine b2.imp_right fun ⟨f1, f2, f3⟩ => ⟨f1, (d' f2).1, ?_⟩
          have := (d' f2).2
          omega
      · rw [e9 x (by omega)]
        rcases b2 with b2 | b2
        · exact .inl b2
        · omega
    dsimp only
    unfold UndoFlush.writeBack
    split
    · refine key _ rfl rfl rfl rfl rfl rfl rfl (fun x a1 a2 a3 => ?_) (fun x a1 => ?_) <;>
        dsimp only
      · by_cases hx : x / c.page = pg
        · rw [if_pos hx]; exact .inl (hl.fileV x a1 (by omega) a3)
        · rw [if_neg hx, upd_other _ _ hx]; exact .inr ⟨rfl, fun h => ⟨h, hx⟩⟩
      · rw [hl.tail x a1, ite_self]
    · rename_i hd
      refine key _ rfl rfl rfl rfl rfl rfl rfl (fun x a1 a2 a3 => .inr ⟨rfl, fun h => ⟨h, ?_⟩⟩)
        (fun x _ => rfl)
      intro hx; rw [hx] at h; exact hd h
  · rename_i lo hi pg hs
    obtain ⟨hl, hk⟩ := h
    rw [hs] at hk
    obtain ⟨h1, h2, h4, h6⟩ := hk
    refine ⟨hl.setCk _, ?_⟩
    refine ⟨h4, h2, fun x a1 a2 a3 => ?_⟩
    dsimp only at a1 ⊢
    obtain ⟨b1, b2⟩ := h6 x a1 a2 a3
    have b2 : s.disk x ∈ s.seen x := by
      rcases b2 with b2 | b2
      · exact b2
      · omega
    refine ⟨b1, b2, ?_⟩
    by_cases h : x < s.written
    · rw [hl.fileV x a1 (by omega) h]; exact b1
    · rw [hl.tail x (by omega)]; exact b2
  · exact h

theorem Inv.step {op : Op} (h : Inv c s) (hc : calmStep c s op) : Inv c (step c s op) := by
  cases op with
  | alloc n => exact h.alloc hc
  | finish l vs => exact h.finish
  | write x v => exact h.write hc
  | evict t => exact h.evict
  | skip => exact h.skip
  | raise l => exact h.raise
  | writeBack pg => exact h.writeBack
  | forget pg => exact h.forget
  | ckRead lo => exact h.ckRead
  | ckFlush m => exact h.ckFlush
  | ckGo => exact h.ckGo

theorem Inv.run {ops : List Op} : ∀ {s : St}, Inv c s → calm c s ops → Inv c (run c s ops) := by
  induction ops with
  | nil => intro s h _; exact h
  | cons op ops ih => intro s h hc; exact ih (h.step hc.1) hc.2

end Verif.UndoFlush
