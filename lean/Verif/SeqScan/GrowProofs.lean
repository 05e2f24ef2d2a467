import Verif.SeqScan.Grow

/-!
# The growth of the shared array: with no more participants than places nothing is lost
-/

namespace Verif.SeqScan.Grow

theorem set_self {α : Type} (f : Nat → α) (x : Nat) (a : α) : set f x a x = a := by simp [set]

theorem set_ne {α : Type} (f : Nat → α) {x y : Nat} (a : α) (h : y ≠ x) : set f x a y = f y := by simp [set, h]

theorem count_congr {f g : Nat → Bool} : ∀ (n : Nat), (∀ v, v < n → f v = g v) → count f n = count g n := by
  intro n
  induction n with
  | zero => intro _; rfl
  | succ n ih =>
    intro h
    simp only [count]
    rw [ih (fun v hv => h v (by omega)), h n (by omega)]

theorem count_le (f : Nat → Bool) : ∀ n, count f n ≤ n := by
  intro n
  induction n with
  | zero => exact Nat.le_refl _
  | succ n ih => simp only [count]; split <;> omega

theorem count_zero {f : Nat → Bool} : ∀ {n : Nat}, count f n = 0 ↔ ∀ v, v < n → f v = false := by
  intro n
  induction n with
  | zero => simp [count]
  | succ n ih =>
    simp only [count]
    constructor
    · intro h v hv
      have h1 : count f n = 0 := by omega
      by_cases hvn : v = n
      · subst hvn
        cases hf : f v with
        | false => rfl
        | true => rw [hf] at h; simp at h
      · exact ih.mp h1 v (by omega)
    · intro h
      rw [ih.mpr (fun v hv => h v (by omega)), h n (by omega)]
      rfl

/-- One participant more. -/
theorem count_add {f g : Nat → Bool} {w : Nat} : ∀ {n : Nat}, w < n → f w = false → g w = true →
    (∀ v, v ≠ w → f v = g v) → count g n = count f n + 1 := by
  intro n
  induction n with
  | zero => intro h; omega
  | succ n ih =>
    intro hw hf hg hfg
    simp only [count]
    by_cases he : w = n
    · subst he
      rw [hf, hg, count_congr w (fun v hv => hfg v (by omega))]
      simp
    · rw [ih (by omega) hf hg hfg, hfg n (by omega)]
      omega

/-- A participant who is about to compare its number. -/
def Pc.idx : Pc → Option Nat
  | .over _ i => some i
  | .grow _ i => some i
  | _ => none

/-- The invariant. -/
structure Inv (n : Nat) (s : St) : Prop where
  size : n ≤ s.cap ∧ 0 < s.cap
  fit : s.added.length ≤ s.cap
  cnt : s.count = s.added.length + count (fun v => (s.pc v).isOver) n
  full : count (fun v => (s.pc v).isOver) n ≠ 0 → s.added.length = s.cap
  own : ∀ w i, (s.pc w).idx = some i → i < s.cap * 2 ∧ (s.seg w = s.cur ∨ i < s.cap)
  out : ∀ w, n ≤ w → s.pc w = .idle
  fresh : s.cur < s.made
  arr : ∀ j, j < s.added.length → s.segs s.cur j = s.added[j]?

theorem inv_init {n cap : Nat} (h : n ≤ cap) (h0 : 0 < cap) : Inv n (init cap) := by
  have hc : count (fun v => ((init cap).pc v).isOver) n = 0 := count_zero.mpr (fun _ _ => rfl)
  refine ⟨⟨h, h0⟩, Nat.zero_le _, ?_, ?_, ?_, fun _ _ => rfl, Nat.one_pos, ?_⟩
  · rw [hc]; rfl
  · intro h; exact absurd hc h
  · intro w i hi; cases hi
  · intro j hj; exact absurd hj (Nat.not_lt_zero _)

theorem step_inv {n : Nat} {s s' : St} {w d : Nat} (hi : Inv n s) (hs : step n s w d = some s') : Inv n s' := by
  unfold step at hs
  split at hs
  · rename_i hw
    -- neither before nor after within the section
    have hcong : ∀ p : Pc, p.isOver = false → (s.pc w).isOver = false →
        count (fun v => (set s.pc w p v).isOver) n = count (fun v => (s.pc v).isOver) n := by
      intro p h1 h2
      refine count_congr n (fun v _ => ?_)
      by_cases hv : v = w
      · subst hv; rw [set_self, h1, h2]
      · rw [set_ne _ _ hv]
    have hout : ∀ p : Pc, ∀ v, n ≤ v → set s.pc w p v = .idle := by
      intro p v hv
      rw [set_ne _ _ (by omega)]; exact hi.out v hv
    split at hs
    · rename_i hpc
      injection hs with hs; subst hs
      have hc := hcong (.want d) rfl (by rw [hpc]; rfl)
      refine ⟨hi.size, hi.fit, ?_, ?_, ?_, hout _, hi.fresh, hi.arr⟩
      · show s.count = s.added.length + count (fun v => (set s.pc w (.want d) v).isOver) n
        rw [hc]; exact hi.cnt
      · show count (fun v => (set s.pc w (.want d) v).isOver) n ≠ 0 → _
        rw [hc]; exact hi.full
      · intro v i
        show (set s.pc w (.want d) v).idx = some i → _
        by_cases hv : v = w
        · subst hv; rw [set_self]; intro h; cases h
        · rw [set_ne _ _ hv]; exact hi.own v i
    · rename_i e hpc
      split at hs
      · rename_i hlt
        injection hs with hs; subst hs
        have hz : count (fun v => (s.pc v).isOver) n = 0 := by
          refine Decidable.byContradiction (fun hne => ?_)
          have h1 := hi.full hne
          have h2 := hi.cnt
          omega
        have hcl : s.count = s.added.length := by have := hi.cnt; omega
        have hc := hcong .idle rfl (by rw [hpc]; rfl)
        refine ⟨hi.size, ?_, ?_, ?_, ?_, hout _, hi.fresh, ?_⟩
        · show (s.added ++ [e]).length ≤ s.cap
          simp; omega
        · show s.count + 1 = (s.added ++ [e]).length + count (fun v => (set s.pc w .idle v).isOver) n
          rw [hc, hz]; simp; omega
        · show count (fun v => (set s.pc w .idle v).isOver) n ≠ 0 → _
          rw [hc, hz]; intro h; exact absurd rfl h
        · intro v i
          show (set s.pc w .idle v).idx = some i → i < s.cap * 2 ∧ (set s.seg w s.cur v = s.cur ∨ i < s.cap)
          by_cases hv : v = w
          · subst hv; rw [set_self]; intro h; cases h
          · rw [set_ne _ _ hv, set_ne _ _ hv]; exact hi.own v i
        · intro j hj
          show set s.segs s.cur (set (s.segs s.cur) s.count (some e)) s.cur j = (s.added ++ [e])[j]?
          rw [set_self]
          have hj' : j < s.added.length + 1 := by
            have : j < (s.added ++ [e]).length := hj
            simpa using this
          by_cases hje : j = s.count
          · rw [hje, set_self, hcl]; simp
          · rw [set_ne _ _ hje, hi.arr j (by omega), List.getElem?_append_left (by omega)]
      · rename_i hge
        injection hs with hs; subst hs
        have hc : count (fun v => (set s.pc w (.over e s.count) v).isOver) n =
            count (fun v => (s.pc v).isOver) n + 1 := by
          refine count_add hw (by rw [hpc]; rfl) (by rw [set_self]; rfl) (fun v hv => by rw [set_ne _ _ hv])
        have hlen : s.added.length = s.cap := by
          by_cases hz : count (fun v => (s.pc v).isOver) n = 0
          · have := hi.cnt; have := hi.fit; omega
          · exact hi.full hz
        have hlt : count (fun v => (s.pc v).isOver) n < n := by
          have := count_le (fun v => (set s.pc w (.over e s.count) v).isOver) n
          omega
        refine ⟨hi.size, hi.fit, ?_, fun _ => hlen, ?_, hout _, hi.fresh, hi.arr⟩
        · show s.count + 1 = s.added.length + count (fun v => (set s.pc w (.over e s.count) v).isOver) n
          rw [hc]; have := hi.cnt; omega
        · intro v i
          show (set s.pc w (.over e s.count) v).idx = some i → i < s.cap * 2 ∧ (set s.seg w s.cur v = s.cur ∨ i < s.cap)
          by_cases hv : v = w
          · subst hv
            rw [set_self, set_self]
            intro h
            injection h with h
            have := hi.cnt
            have := hi.size
            exact ⟨by omega, Or.inl rfl⟩
          · rw [set_ne _ _ hv, set_ne _ _ hv]; exact hi.own v i
    · rename_i e j hpc
      injection hs with hs; subst hs
      have hc : count (fun v => (s.pc v).isOver) n = count (fun v => (set s.pc w (.grow e j) v).isOver) n + 1 :=
        count_add hw (by rw [set_self]; rfl) (by rw [hpc]; rfl) (fun v hv => by rw [set_ne _ _ hv])
      refine ⟨hi.size, hi.fit, ?_, ?_, ?_, hout _, hi.fresh, hi.arr⟩
      · show s.count - 1 = s.added.length + count (fun v => (set s.pc w (.grow e j) v).isOver) n
        have := hi.cnt; omega
      · intro _
        exact hi.full (by omega)
      · intro v i
        show (set s.pc w (.grow e j) v).idx = some i → _
        by_cases hv : v = w
        · subst hv; rw [set_self]; intro h
          exact hi.own v i (by rw [hpc]; exact h)
        · rw [set_ne _ _ hv]; exact hi.own v i
    · rename_i e j hpc
      split at hs
      · rename_i hz
        have hc := hcong (.want e) rfl (by rw [hpc]; rfl)
        have hcl : s.count = s.added.length := by have := hi.cnt; omega
        split at hs
        · rename_i hle
          injection hs with hs; subst hs
          have hseg : s.seg w = s.cur := by
            rcases (hi.own w j (by rw [hpc]; rfl)).2 with h | h
            · exact h
            · omega
          have hsz := hi.size
          refine ⟨?_, ?_, ?_, ?_, ?_, hout _, Nat.lt_succ_self _, ?_⟩
          · show n ≤ s.cap * 2 ∧ 0 < s.cap * 2
            omega
          · show s.added.length ≤ s.cap * 2
            have := hi.fit; omega
          · show s.count = s.added.length + count (fun v => (set s.pc w (.want e) v).isOver) n
            rw [hc]; exact hi.cnt
          · show count (fun v => (set s.pc w (.want e) v).isOver) n ≠ 0 → _
            rw [hc, hz]; intro h; exact absurd rfl h
          · intro v i
            show (set s.pc w (.want e) v).idx = some i →
              i < s.cap * 2 * 2 ∧ (set s.seg w s.made v = s.made ∨ i < s.cap * 2)
            by_cases hv : v = w
            · subst hv; rw [set_self]; intro h; cases h
            · rw [set_ne _ _ hv]; intro h
              have := (hi.own v i h).1
              exact ⟨by omega, Or.inr this⟩
          · intro k hk
            have hk' : k < s.added.length := hk
            show set s.segs s.made (fun j => if j < s.count then s.segs (s.seg w) j else none) s.made k = s.added[k]?
            rw [set_self, if_pos (by omega), hseg]
            exact hi.arr k hk'
        · injection hs with hs; subst hs
          refine ⟨hi.size, hi.fit, ?_, ?_, ?_, hout _, hi.fresh, hi.arr⟩
          · show s.count = s.added.length + count (fun v => (set s.pc w (.want e) v).isOver) n
            rw [hc]; exact hi.cnt
          · show count (fun v => (set s.pc w (.want e) v).isOver) n ≠ 0 → _
            rw [hc]; exact hi.full
          · intro v i
            show (set s.pc w (.want e) v).idx = some i → _
            by_cases hv : v = w
            · subst hv; rw [set_self]; intro h; cases h
            · rw [set_ne _ _ hv]; exact hi.own v i
      · cases hs
  · cases hs

theorem run_inv {n : Nat} : ∀ (es : List (Nat × Nat)) (s s' : St), Inv n s → run n s es = some s' → Inv n s' := by
  intro es
  induction es with
  | nil => intro s s' hi hr; injection hr with hr; subst hr; exact hi
  | cons e es ih =>
    intro s s' hi hr
    simp only [run] at hr
    cases hs : step n s e.1 e.2 with
    | none => rw [hs] at hr; cases hr
    | some s1 => rw [hs] at hr; exact ih s1 s' (step_inv hi hs) hr

theorem inv_array {n : Nat} {s : St} (hi : Inv n s) (hq : s.quiet n) : s.array = s.added.map some := by
  have hz : count (fun v => (s.pc v).isOver) n = 0 := count_zero.mpr hq
  have hcl : s.count = s.added.length := by have := hi.cnt; omega
  unfold St.array
  refine List.ext_getElem? (fun j => ?_)
  rw [List.getElem?_map, List.getElem?_map]
  by_cases hj : j < s.added.length
  · rw [List.getElem?_range (by omega), Option.map_some, hi.arr j hj, List.getElem?_eq_getElem hj]
    rfl
  · rw [List.getElem?_eq_none (by simp; omega), List.getElem?_eq_none (by omega)]
    rfl

end Verif.SeqScan.Grow
