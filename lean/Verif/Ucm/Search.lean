import Verif.Ucm.Inv

/-! The search of the usage count map on a state whose counters are exact. -/

namespace Verif.Ucm

/-- The counters of the levels in `m` are exact (no running update disturbs
them). -/
def Exact (g : Geom) (s : State) (m : Nat → Bool) : Prop :=
  ∀ i l, i < g.total → l < 8 → m l = true → s.cnt i l = below1 g s i l

/-- The `x`-th word of depth `d` (or the page `x` for `d = D + 1`) has a wanted
level. -/
def Good (g : Geom) (s : State) (m : Nat → Bool) (D d x : Nat) : Prop :=
  if d ≤ D then lvl d + x < g.total ∧ ∃ l, l < 8 ∧ m l = true ∧ s.cnt (lvl d + x) l ≠ 0
  else x < g.size ∧ m (s.page x) = true

theorem lvl_mono {a b : Nat} (h : a ≤ b) : lvl a ≤ lvl b := by
  induction b with
  | zero => have : a = 0 := by omega
            subst this; exact Nat.le_refl _
  | succ b ih =>
    rcases Nat.lt_or_ge a (b + 1) with h' | h'
    · have := ih (by omega)
      have e : lvl (b + 1) = (lvl b + 1) * 15 := rfl
      omega
    · have : a = b + 1 := by omega
      subst this; exact Nat.le_refl _

section
variable {g : Geom} {D : Nat} {s : State} {m : Nat → Bool}

/-- Words of depth `d < D` have at most `15 ^ (d+1)` siblings. -/
theorem good_down (sh : Shape g D) (ex : Exact g s m) {d x : Nat} (hd : d ≤ D)
    (hx : x < 15 ^ (d + 1)) (h : Good g s m D d x) :
    ∃ c, c < 15 ∧ Good g s m D (d + 1) (x * 15 + c) := by
  unfold Good at h
  rw [if_pos hd] at h
  obtain ⟨ht, l, hl, hm, hc⟩ := h
  rw [ex _ l ht hl hm] at hc
  unfold below1 at hc
  by_cases hD : d = D
  · subst hD
    have hn : ¬ lvl d + x < g.nonLeaf := by rw [sh.nonLeaf]; omega
    rw [if_neg hn] at hc
    obtain ⟨c, h1, h2⟩ := count15_pos.1 (Nat.pos_of_ne_zero hc)
    rw [decide_eq_true_eq, sh.nonLeaf, show lvl d + x - lvl d = x by omega] at h2
    refine ⟨c, h1, ?_⟩
    unfold Good
    rw [if_neg (by omega)]
    exact ⟨h2.1, by rw [h2.2]; exact hm⟩
  · have hn : lvl d + x < g.nonLeaf := by
      rw [sh.nonLeaf]
      have := lvl_mono (show d + 1 ≤ D by omega)
      rw [lvl_succ] at this
      omega
    rw [if_pos hn] at hc
    obtain ⟨c, h1, h2⟩ := count15_pos.1 (Nat.pos_of_ne_zero hc)
    rw [decide_eq_true_eq] at h2
    have e : (lvl d + x + 1) * 15 + c = lvl (d + 1) + (x * 15 + c) := by
      show _ = (lvl d + 1) * 15 + _
      omega
    rw [e] at h2
    refine ⟨c, h1, ?_⟩
    unfold Good
    rw [if_pos (by omega)]
    exact ⟨h2.1, l, hl, hm, h2.2⟩

theorem good_up (sh : Shape g D) (ex : Exact g s m) (hI : m INVALID = false)
    (pg : ∀ p, s.page p < 8 ∨ s.page p = INVALID) {d x : Nat} (hd : d ≤ D)
    (hx : x / 15 < 15 ^ (d + 1))
    (h : Good g s m D (d + 1) x) : Good g s m D d (x / 15) := by
  unfold Good at h ⊢
  rw [if_pos hd]
  by_cases hD : d = D
  · subst hD
    rw [if_neg (by omega)] at h
    have ht : lvl d + x / 15 < g.total := by
      rw [sh.total, sh.nonLeaf]; omega
    refine ⟨ht, s.page x, ?_, h.2, ?_⟩
    · rcases pg x with h' | h'
      · exact h'
      · rw [h', hI] at h; exact absurd h.2 (by decide)
    · have hl : s.page x < 8 := by
        rcases pg x with h' | h'
        · exact h'
        · rw [h', hI] at h; exact absurd h.2 (by decide)
      rw [ex _ _ ht hl h.2]
      unfold below1
      have hn : ¬ lvl d + x / 15 < g.nonLeaf := by rw [sh.nonLeaf]; omega
      rw [if_neg hn]
      apply Nat.ne_of_gt
      apply count15_pos.2
      refine ⟨x % 15, by omega, ?_⟩
      rw [decide_eq_true_eq, sh.nonLeaf,
        show (lvl d + x / 15 - lvl d) * 15 + x % 15 = x by omega]
      exact ⟨h.1, rfl⟩
  · rw [if_pos (by omega)] at h
    obtain ⟨ht', l, hl, hm, hc⟩ := h
    have hn : lvl d + x / 15 < g.nonLeaf := by
      rw [sh.nonLeaf]
      have := lvl_mono (show d + 1 ≤ D by omega)
      rw [lvl_succ] at this
      omega
    have ht : lvl d + x / 15 < g.total := by rw [sh.total]; omega
    refine ⟨ht, l, hl, hm, ?_⟩
    rw [ex _ _ ht hl hm]
    unfold below1
    rw [if_pos hn]
    apply Nat.ne_of_gt
    apply count15_pos.2
    refine ⟨x % 15, by omega, ?_⟩
    have e : (lvl d + x / 15 + 1) * 15 + x % 15 = lvl (d + 1) + x := by
      show _ = (lvl d + 1) * 15 + _
      omega
    rw [decide_eq_true_eq, e]
    exact ⟨ht', hc⟩

/-- The cursor is at depth `d`. -/
structure At (D d : Nat) (c : Cursor) : Prop where
  factor : c.factor = 15 ^ (D + 1 - d)
  base : c.base = lvl d + c.location / c.factor / 15 * 15
  range : c.location < 15 ^ (D + 2)

theorem At.pos {d : Nat} {c : Cursor} (h : At D d c) : 0 < c.factor := by
  rw [h.factor]; exact Nat.pow_pos (by decide)

theorem At.idx {d : Nat} {c : Cursor} (h : At D d c) :
    c.base + c.location / c.factor % 15 = lvl d + c.location / c.factor := by
  rw [h.base]; omega

theorem At.ord_lt {d : Nat} {c : Cursor} (h : At D d c) (hd : d ≤ D + 1) :
    c.location / c.factor < 15 ^ (d + 1) := by
  rw [Nat.div_lt_iff_lt_mul h.pos, h.factor, ← Nat.pow_add]
  rw [show d + 1 + (D + 1 - d) = D + 2 by omega]
  exact h.range

theorem stepOver_ord {c : Cursor} :
    (stepOver c).location =
      (c.location / c.factor + (c.location / c.factor % 15 + 1) % 15 -
        c.location / c.factor % 15) * c.factor := by
  unfold stepOver
  dsimp only
  rw [Nat.sub_mul, Nat.add_mul]

theorem stepOver_at {d : Nat} {c : Cursor} (h : At D d c) (hd : d ≤ D + 1) :
    At D d (stepOver c) ∧
    (stepOver c).location / (stepOver c).factor =
      c.location / c.factor + (c.location / c.factor % 15 + 1) % 15 -
        c.location / c.factor % 15 := by
  have hp := h.pos
  have hf : (stepOver c).factor = c.factor := rfl
  have hb : (stepOver c).base = c.base := rfl
  have ho := stepOver_ord (c := c)
  have hq : (stepOver c).location / (stepOver c).factor =
      c.location / c.factor + (c.location / c.factor % 15 + 1) % 15 -
        c.location / c.factor % 15 := by
    rw [ho, hf, Nat.mul_div_cancel _ hp]
  refine ⟨⟨?_, ?_, ?_⟩, hq⟩
  · rw [hf]; exact h.factor
  · rw [hb, hq, h.base]; omega
  · have hlt := h.ord_lt hd
    have h15 : 15 ^ (d + 1) % 15 = 0 := by rw [Nat.pow_succ]; exact Nat.mul_mod_left _ _
    have hlt' : c.location / c.factor + (c.location / c.factor % 15 + 1) % 15 -
        c.location / c.factor % 15 < 15 ^ (d + 1) := by
      generalize c.location / c.factor = o at *
      generalize 15 ^ (d + 1) = b at *
      omega
    rw [ho]
    have := Nat.mul_lt_mul_of_lt_of_le hlt' (Nat.le_refl c.factor) hp
    refine Nat.lt_of_lt_of_eq this ?_
    rw [h.factor, ← Nat.pow_add, show d + 1 + (D + 1 - d) = D + 2 by omega]

/-- One turn at a good position finds the page or steps into. -/
theorem turn_cases (sh : Shape g D) {stop : Bool} {mask want : Nat → Bool}
    (hmask : ∀ l, l < 8 → mask l = m l) (hwant : ∀ p, want (s.page p) = m (s.page p))
    {d : Nat} {c : Cursor} (h : At D d c) (hd : d ≤ D + 1) :
    (Good g s m D d (c.location / c.factor) ∧ d = D + 1 ∧
      turn g s stop mask want c = .found c.location) ∨
    (Good g s m D d (c.location / c.factor) ∧ d ≤ D ∧
      turn g s stop mask want c = .again { c with
        base := (c.base + c.location / c.factor % 15 + 1) * 15,
        factor := c.factor / 15, iters := 0 }) ∨
    (¬ Good g s m D d (c.location / c.factor) ∧
      (c.iters ≤ 30 → turn g s stop mask want c = .again (stepOver c)) ∧
      (c.iters > 30 → c.base = 0 → turn g s stop mask want c =
        if stop then .giveUp else .again (stepOver c))) := by
  unfold turn
  dsimp only
  rw [h.idx]
  by_cases hD : d = D + 1
  · have hf : c.factor = 1 := by rw [h.factor, hD, Nat.sub_self, Nat.pow_zero]
    have hnt : ¬ lvl d + c.location / c.factor < g.total := by
      have := sh.le; rw [hD]; exact Nat.not_lt.2 (Nat.le_trans this (Nat.le_add_right _ _))
    by_cases hg : c.location < g.size ∧ m (s.page c.location) = true
    · left
      refine ⟨?_, hD, ?_⟩
      · unfold Good; rw [if_neg (by omega), hf, Nat.div_one]; exact hg
      · rw [if_pos ⟨hf, hg.1, by rw [hwant]; exact hg.2⟩]
    · right; right
      refine ⟨?_, ?_, ?_⟩
      · unfold Good; rw [if_neg (by omega), hf, Nat.div_one]; exact hg
      · intro hi
        rw [if_neg (fun hh => hg ⟨hh.2.1, by rw [← hwant]; exact hh.2.2⟩),
          if_neg (fun hh => hnt hh.1), if_neg (by omega)]
      · intro hi hb
        rw [if_neg (fun hh => hg ⟨hh.2.1, by rw [← hwant]; exact hh.2.2⟩),
          if_neg (fun hh => hnt hh.1), if_pos hi, if_pos hb]
  · have hdD : d ≤ D := by omega
    have hf : ¬ c.factor = 1 := by
      rw [h.factor]
      have : 15 ^ 1 ≤ 15 ^ (D + 1 - d) := Nat.pow_le_pow_right (by decide) (by omega)
      omega
    have hany : (lvl d + c.location / c.factor < g.total ∧ (List.range 8).any (fun l =>
        mask l && decide (s.cnt (lvl d + c.location / c.factor) l ≠ 0)) = true) ↔
        Good g s m D d (c.location / c.factor) := by
      unfold Good
      rw [if_pos hdD, List.any_eq_true]
      constructor
      · rintro ⟨h1, l, h2, h3⟩
        have hl := List.mem_range.1 h2
        rw [Bool.and_eq_true, decide_eq_true_eq, hmask l hl] at h3
        exact ⟨h1, l, hl, h3.1, h3.2⟩
      · rintro ⟨h1, l, hl, h2, h3⟩
        refine ⟨h1, l, List.mem_range.2 hl, ?_⟩
        rw [Bool.and_eq_true, decide_eq_true_eq, hmask l hl]
        exact ⟨h2, h3⟩
    rw [if_neg (fun hh => hf hh.1)]
    by_cases hg : Good g s m D d (c.location / c.factor)
    · right; left
      refine ⟨hg, hdD, ?_⟩
      rw [if_pos (hany.2 hg)]
    · right; right
      refine ⟨hg, ?_, ?_⟩
      · intro hi
        rw [if_neg (fun hh => hg (hany.1 hh)), if_neg (by omega)]
      · intro hi hb
        rw [if_neg (fun hh => hg (hany.1 hh)), if_pos hi, if_pos hb]

theorem search_again {stop : Bool} {mask want : Nat → Bool} {c c' : Cursor} {n : Nat}
    (h : turn g s stop mask want c = .again c') :
    search g s stop mask want (n + 1) c = search g s stop mask want n c' := by
  rw [search, h]

/-- The core of the search: with a wanted position among the 15 of the current
block the search ends with a wanted page. -/
theorem search_scan (sh : Shape g D) (ex : Exact g s m) {stop : Bool} {mask want : Nat → Bool}
    (hmask : ∀ l, l < 8 → mask l = m l) (hwant : ∀ p, want (s.page p) = m (s.page p)) :
    ∀ (e d : Nat), d + e = D + 1 → ∀ (k : Nat) (c : Cursor) (x : Nat), At D d c →
    k + c.iters ≤ 30 → x / 15 = c.location / c.factor / 15 →
    (c.location / c.factor % 15 + k) % 15 = x % 15 → Good g s m D d x →
    ∃ n p, search g s stop mask want n c = .found p ∧ p < g.size ∧
      m (s.page p) = true := by
  intro e
  induction e with
  | zero =>
    intro d hd k
    induction k with
    | zero =>
      intro c x at' hk hb hr hg
      have hxe : x = c.location / c.factor := by omega
      subst hxe
      rcases turn_cases sh (stop := stop) hmask hwant at' (by omega) with h | h | h
      · refine ⟨1, c.location, ?_, ?_⟩
        · rw [search, h.2.2]
        · have hf : c.factor = 1 := by rw [at'.factor, h.2.1, Nat.sub_self, Nat.pow_zero]
          unfold Good at hg
          rw [if_neg (by omega), hf, Nat.div_one] at hg
          exact hg
      · omega
      · exact absurd hg h.1
    | succ k ih =>
      intro c x at' hk hb hr hg
      rcases turn_cases sh (stop := stop) hmask hwant at' (by omega) with h | h | h
      · refine ⟨1, c.location, ?_, ?_⟩
        · rw [search, h.2.2]
        · have hf : c.factor = 1 := by rw [at'.factor, h.2.1, Nat.sub_self, Nat.pow_zero]
          have hg := h.1
          unfold Good at hg
          rw [if_neg (by omega), hf, Nat.div_one] at hg
          exact hg
      · omega
      · obtain ⟨a1, a2⟩ := stepOver_at at' (by omega)
        have hit : (stepOver c).iters = c.iters + 1 := rfl
        obtain ⟨n, p, hs⟩ := ih (stepOver c) x a1 (by omega) (by rw [a2]; omega)
          (by rw [a2]; omega) hg
        exact ⟨n + 1, p, by rw [search_again (h.2.1 (by omega))]; exact hs⟩
  | succ e ihe =>
    intro d hd k
    have down : ∀ c : Cursor, At D d c → Good g s m D d (c.location / c.factor) →
        turn g s stop mask want c = .again { c with
          base := (c.base + c.location / c.factor % 15 + 1) * 15,
          factor := c.factor / 15, iters := 0 } →
        ∃ n p, search g s stop mask want n c = .found p ∧ p < g.size ∧
          m (s.page p) = true := by
      intro c at' hg ht
      obtain ⟨ch, hc1, hc2⟩ := good_down sh ex (by omega) (at'.ord_lt (by omega)) hg
      have hfe : c.factor = c.factor / 15 * 15 := by
        have : c.factor = 15 ^ (D - d) * 15 := by
          rw [at'.factor, ← Nat.pow_succ, show D + 1 - d = D - d + 1 by omega]
        rw [this, Nat.mul_div_cancel _ (by decide)]
      have hdd : c.location / (c.factor / 15) / 15 = c.location / c.factor := by
        rw [Nat.div_div_eq_div_mul, ← hfe]
      obtain ⟨n, p, hs⟩ := ihe (d + 1) (by omega)
        ((ch + 15 - c.location / (c.factor / 15) % 15) % 15)
        { c with
          base := (c.base + c.location / c.factor % 15 + 1) * 15,
          factor := c.factor / 15, iters := 0 } (c.location / c.factor * 15 + ch)
        ⟨by
          show c.factor / 15 = _
          rw [at'.factor, show D + 1 - d = D + 1 - (d + 1) + 1 by omega, Nat.pow_succ,
            Nat.mul_div_cancel _ (by decide)], by
          show (c.base + c.location / c.factor % 15 + 1) * 15 = _
          dsimp only
          rw [at'.idx, hdd]
          show _ = (lvl d + 1) * 15 + _
          omega, at'.range⟩
        (by dsimp only; omega) (by dsimp only; rw [hdd]; omega) (by dsimp only; omega) hc2
      exact ⟨n + 1, p, by rw [search_again ht]; exact hs⟩
    induction k with
    | zero =>
      intro c x at' hk hb hr hg
      have hxe : x = c.location / c.factor := by omega
      subst hxe
      rcases turn_cases sh (stop := stop) hmask hwant at' (by omega) with h | h | h
      · omega
      · exact down c at' hg h.2.2
      · exact absurd hg h.1
    | succ k ih =>
      intro c x at' hk hb hr hg
      rcases turn_cases sh (stop := stop) hmask hwant at' (by omega) with h | h | h
      · omega
      · exact down c at' h.1 h.2.2
      · obtain ⟨a1, a2⟩ := stepOver_at at' (by omega)
        have hit : (stepOver c).iters = c.iters + 1 := rfl
        obtain ⟨n, p, hs⟩ := ih (stepOver c) x a1 (by omega) (by rw [a2]; omega)
          (by rw [a2]; omega) hg
        exact ⟨n + 1, p, by rw [search_again (h.2.1 (by omega))]; exact hs⟩

theorem size_lt (sh : Shape g D) {p : Nat} (hp : p < g.size) : p < 15 ^ (D + 2) := by
  have h1 := sh.le
  rw [sh.total, sh.nonLeaf, lvl_succ] at h1
  rw [show D + 2 = D + 1 + 1 from rfl, Nat.pow_succ]
  omega

theorem start_at (sh : Shape g D) {loc : Nat} (h : loc < 15 ^ (D + 2)) :
    At D 0 (start g loc) := by
  refine ⟨?_, ?_, h⟩
  · show g.rootFactor = _
    rw [sh.rootFactor, Nat.sub_zero]
  · show 0 = 0 + loc / g.rootFactor / 15 * 15
    rw [sh.rootFactor, Nat.div_div_eq_div_mul, ← Nat.pow_succ, Nat.div_eq_of_lt h]

/-- A wanted page makes every ancestor good. -/
theorem good_anc (sh : Shape g D) (ex : Exact g s m) (hI : m INVALID = false)
    (pg : ∀ p, s.page p < 8 ∨ s.page p = INVALID) {p : Nat} (hp : p < g.size)
    (hm : m (s.page p) = true) :
    ∀ e d, d + e = D + 1 → Good g s m D d (p / 15 ^ e) := by
  intro e
  induction e with
  | zero =>
    intro d hd
    unfold Good
    rw [if_neg (by omega), Nat.pow_zero, Nat.div_one]
    exact ⟨hp, hm⟩
  | succ e ih =>
    intro d hd
    have h := ih (d + 1) (by omega)
    have e1 : p / 15 ^ (e + 1) = p / 15 ^ e / 15 := by
      rw [Nat.div_div_eq_div_mul, ← Nat.pow_succ]
    have hlt : p / 15 ^ (e + 1) < 15 ^ (d + 1) := by
      rw [Nat.div_lt_iff_lt_mul (Nat.pow_pos (by decide)), ← Nat.pow_add]
      rw [show d + 1 + (e + 1) = D + 2 by omega]
      exact size_lt sh hp
    rw [e1] at hlt ⊢
    exact good_up sh ex hI pg (by omega) hlt h

theorem search_finds (sh : Shape g D) (ex : Exact g s m) (hI : m INVALID = false)
    (pg : ∀ p, s.page p < 8 ∨ s.page p = INVALID)
    {stop : Bool} {mask want : Nat → Bool}
    (hmask : ∀ l, l < 8 → mask l = m l) (hwant : ∀ p, want (s.page p) = m (s.page p))
    {loc : Nat} (hloc : loc < 15 ^ (D + 2))
    (h : ∃ p, p < g.size ∧ m (s.page p) = true) :
    ∃ n p, search g s stop mask want n (start g loc) = .found p ∧ p < g.size ∧
      m (s.page p) = true := by
  obtain ⟨p, hp, hm⟩ := h
  have hg := good_anc sh ex hI pg hp hm (D + 1) 0 (by omega)
  have at0 := start_at sh hloc
  have h15 : p / 15 ^ (D + 1) < 15 := by
    rw [Nat.div_lt_iff_lt_mul (Nat.pow_pos (by decide))]
    have := size_lt sh hp
    rw [show D + 2 = D + 1 + 1 from rfl, Nat.pow_succ] at this
    omega
  have hl15 : (start g loc).location / (start g loc).factor < 15 := at0.ord_lt (by omega)
  exact search_scan sh ex hmask hwant (D + 1) 0 (by omega)
    ((p / 15 ^ (D + 1) + 15 - (start g loc).location / (start g loc).factor % 15) % 15)
    (start g loc) (p / 15 ^ (D + 1)) at0
    (by show _ + 0 ≤ 30; omega)
    (by
      generalize p / 15 ^ (D + 1) = a at *
      generalize (start g loc).location / (start g loc).factor = b at *
      omega)
    (by
      generalize p / 15 ^ (D + 1) = a at *
      generalize (start g loc).location / (start g loc).factor = b at *
      omega) hg

/-- Without a wanted page no root word is good. -/
theorem none_good (sh : Shape g D) (ex : Exact g s m)
    (h : ¬ ∃ p, p < g.size ∧ m (s.page p) = true) :
    ∀ e d x, d + e = D + 1 → x < 15 ^ (d + 1) → ¬ Good g s m D d x := by
  intro e
  induction e with
  | zero =>
    intro d x hd hx hg
    unfold Good at hg
    rw [if_neg (by omega)] at hg
    exact h ⟨x, hg⟩
  | succ e ih =>
    intro d x hd hx hg
    obtain ⟨c, hc, hg'⟩ := good_down sh ex (by omega) hx hg
    refine ih (d + 1) _ (by omega) ?_ hg'
    rw [Nat.pow_succ]; omega

theorem search_none (sh : Shape g D) (ex : Exact g s m)
    {mask want : Nat → Bool}
    (hmask : ∀ l, l < 8 → mask l = m l) (hwant : ∀ p, want (s.page p) = m (s.page p))
    (h : ¬ ∃ p, p < g.size ∧ m (s.page p) = true) :
    ∀ (k : Nat) (c : Cursor), At D 0 c → k + c.iters = 31 →
    search g s true mask want (k + 1) c = .giveUp := by
  intro k
  induction k with
  | zero =>
    intro c at' hk
    have hng := none_good sh ex h (D + 1) 0 _ (by omega) (at'.ord_lt (by omega))
    have hb : c.base = 0 := by
      have := at'.ord_lt (by omega)
      rw [at'.base]
      show 0 + _ = 0
      omega
    rcases turn_cases sh (stop := true) hmask hwant at' (by omega) with h' | h' | h'
    · exact absurd h'.1 hng
    · exact absurd h'.1 hng
    · rw [search, h'.2.2 (by omega) hb]
      simp
  | succ k ih =>
    intro c at' hk
    have hng := none_good sh ex h (D + 1) 0 _ (by omega) (at'.ord_lt (by omega))
    rcases turn_cases sh (stop := true) hmask hwant at' (by omega) with h' | h' | h'
    · exact absurd h'.1 hng
    · exact absurd h'.1 hng
    · rw [search_again (h'.2.1 (by omega))]
      exact ih _ (stepOver_at at' (by omega)).1 (by
        have : (stepOver c).iters = c.iters + 1 := rfl
        omega)

theorem search_none_spin (sh : Shape g D) (ex : Exact g s m)
    {mask want : Nat → Bool}
    (hmask : ∀ l, l < 8 → mask l = m l) (hwant : ∀ p, want (s.page p) = m (s.page p))
    (h : ¬ ∃ p, p < g.size ∧ m (s.page p) = true) :
    ∀ (n : Nat) (c : Cursor), At D 0 c →
    ∃ c', search g s false mask want n c = .again c' := by
  intro n
  induction n with
  | zero => intro c _; exact ⟨c, rfl⟩
  | succ n ih =>
    intro c at'
    have hng := none_good sh ex h (D + 1) 0 _ (by omega) (at'.ord_lt (by omega))
    have hb : c.base = 0 := by
      have := at'.ord_lt (by omega)
      rw [at'.base]
      show 0 + _ = 0
      omega
    have ht : turn g s false mask want c = .again (stepOver c) := by
      rcases turn_cases sh (stop := false) hmask hwant at' (by omega) with h' | h' | h'
      · exact absurd h'.1 hng
      · exact absurd h'.1 hng
      · by_cases hi : c.iters ≤ 30
        · exact h'.2.1 hi
        · rw [h'.2.2 (by omega) hb]; simp
    rw [search_again ht]
    exact ih _ (stepOver_at at' (by omega)).1

/-- More fuel does not change a result. -/
theorem search_mono {stop : Bool} {mask want : Nat → Bool} {r : Turn}
    (hr : ∀ c, r ≠ .again c) :
    ∀ (n k : Nat) (c : Cursor), search g s stop mask want n c = r →
    search g s stop mask want (n + k) c = r := by
  intro n
  induction n with
  | zero => intro k c h; exact absurd h.symm (hr c)
  | succ n ih =>
    intro k c h
    rw [show n + 1 + k = n + k + 1 by omega]
    rw [search] at h ⊢
    cases ht : turn g s stop mask want c with
    | found p => rw [ht] at h; exact h
    | giveUp => rw [ht] at h; exact h
    | again c' => rw [ht] at h; exact ih k c' h

end

end Verif.Ucm
