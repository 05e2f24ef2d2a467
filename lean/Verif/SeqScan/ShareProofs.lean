import Verif.SeqScan.Share

/-!
# The leaves of a parallel scan: no leaf is read twice, and when all are read
-/

namespace Verif.SeqScan.Share

/-- A participant has taken a downlink and has neither read the leaf nor added it to the array. -/
def Pc.holds (p : Pc) (d : Nat) : Prop := p = .got d ∨ p = .put d

theorem at_self (s : St) (w : Nat) (p : Pc) : (s.at w p).pc w = p := by simp [St.at]

theorem at_ne (s : St) {w v : Nat} (p : Pc) (h : v ≠ w) : (s.at w p).pc v = s.pc v := by simp [St.at, h]

/-- Each downlink taken is at one place only. -/
structure Inv (m : Nat) (disk : Nat → Option Nat) (s : St) : Prop where
  pos : s.pos ≤ m
  held : ∀ w d, (s.pc w).holds d → d < s.pos ∧ d ∉ s.arr ∧ d ∉ s.mem
  heldU : ∀ w v d, (s.pc w).holds d → (s.pc v).holds d → w = v
  put : ∀ w d, s.pc w = .put d → (disk d).isSome = true
  arrN : s.arr.Nodup
  arr : ∀ d, d ∈ s.arr → d < s.pos ∧ (disk d).isSome = true
  memN : s.mem.Nodup
  mem : ∀ d, d ∈ s.mem → d < s.pos ∧ (disk d).isSome = false
  all : ∀ d, d < s.pos → (∃ w, (s.pc w).holds d) ∨ d ∈ s.arr ∨ d ∈ s.mem
  late : ∀ w, (s.pc w = .fetch ∨ (∃ i, s.pc w = .chk i) ∨ s.pc w = .done) → s.sorted = true
  chk : ∀ w i, s.pc w = .chk i → i < s.idx ∧ ∀ d, (i, d) ∉ s.dsk
  chkU : ∀ w v i, s.pc w = .chk i → s.pc v = .chk i → w = v
  dsk : ∀ i d, (i, d) ∈ s.dsk → s.sorted = true ∧ i < s.idx ∧ s.arr[i]? = some d
  dskN : (s.dsk.map (fun x => x.1)).Nodup

theorem inv_init (m : Nat) (disk : Nat → Option Nat) : Inv m disk init := by
  constructor <;> simp [init, Pc.holds]

theorem holds_next {d : Nat} : ¬ Pc.next.holds d := by simp [Pc.holds]

/-- A step which changes only what a participant is about to do, from and to a place without a downlink. -/
theorem inv_move {m : Nat} {disk : Nat → Option Nat} {s : St} {w : Nat} {p : Pc} (hi : Inv m disk s)
    (h0 : ∀ d, ¬ (s.pc w).holds d) (h1 : ∀ d, ¬ p.holds d)
    (h2 : (p = .fetch ∨ (∃ i, p = .chk i) ∨ p = .done) → s.sorted = true) (h3 : ∀ i, p ≠ .chk i) :
    Inv m disk (s.at w p) := by
  have hp : ∀ v d, ((s.at w p).pc v).holds d → (s.pc v).holds d ∧ v ≠ w := by
    intro v d h
    by_cases hv : v = w
    · subst hv; rw [at_self] at h; exact absurd h (h1 d)
    · rw [at_ne s p hv] at h; exact ⟨h, hv⟩
  have hc : ∀ v i, (s.at w p).pc v = .chk i → s.pc v = .chk i := by
    intro v i h
    by_cases hv : v = w
    · subst hv; rw [at_self] at h; exact absurd h (h3 i)
    · rw [at_ne s p hv] at h; exact h
  refine ⟨hi.pos, fun v d h => hi.held v d (hp v d h).1, fun v u d h h' => hi.heldU v u d (hp v d h).1 (hp u d h').1,
    fun v d h => ?_, hi.arrN, hi.arr, hi.memN, hi.mem, fun d h => ?_, fun v h => ?_, fun v i h => hi.chk v i (hc v i h),
    fun v u i h h' => hi.chkU v u i (hc v i h) (hc u i h'), hi.dsk, hi.dskN⟩
  · by_cases hv : v = w
    · subst hv; rw [at_self] at h; exact absurd (Or.inr h) (h1 d)
    · rw [at_ne s p hv] at h; exact hi.put v d h
  · rcases hi.all d h with ⟨v, hv⟩ | h | h
    · refine Or.inl ⟨v, ?_⟩
      have hne : v ≠ w := by rintro rfl; exact h0 d hv
      rw [at_ne s p hne]; exact hv
    · exact Or.inr (Or.inl h)
    · exact Or.inr (Or.inr h)
  · by_cases hv : v = w
    · subst hv; rw [at_self] at h; exact h2 h
    · rw [at_ne s p hv] at h; exact hi.late v h

theorem inv_writers {m : Nat} {disk : Nat → Option Nat} {s : St} (n : Nat) (hi : Inv m disk s) :
    Inv m disk { s with writers := n } := by
  obtain ⟨a, b, c, d, e, f, g, h, i, j, k, l, o, p⟩ := hi
  exact ⟨a, b, c, d, e, f, g, h, i, j, k, l, o, p⟩

theorem inv_take {m : Nat} {disk : Nat → Option Nat} {s : St} {w : Nat} (hi : Inv m disk s) (hw : s.pc w = .next)
    (hlt : s.pos < m) : Inv m disk ({ s with pos := s.pos + 1 }.at w (.got s.pos)) := by
  let t : St := { s with pos := s.pos + 1 }
  have hp : ∀ v d, ((t.at w (.got s.pos)).pc v).holds d →
      (v = w ∧ d = s.pos) ∨ (v ≠ w ∧ (s.pc v).holds d) := by
    intro v d h
    by_cases hv : v = w
    · subst hv; rw [at_self] at h
      rcases h with h | h
      · injection h with h; exact Or.inl ⟨rfl, h.symm⟩
      · cases h
    · rw [at_ne t _ hv] at h; exact Or.inr ⟨hv, h⟩
  have hc : ∀ v i, (t.at w (.got s.pos)).pc v = .chk i → s.pc v = .chk i := by
    intro v i h
    by_cases hv : v = w
    · subst hv; rw [at_self] at h; cases h
    · rw [at_ne t _ hv] at h; exact h
  have hna : s.pos ∉ s.arr := fun h => Nat.lt_irrefl _ (hi.arr _ h).1
  have hnm : s.pos ∉ s.mem := fun h => Nat.lt_irrefl _ (hi.mem _ h).1
  refine ⟨hlt, ?_, ?_, ?_, hi.arrN, ?_, hi.memN, ?_, ?_, ?_, fun v i h => hi.chk v i (hc v i h),
    fun v u i h h' => hi.chkU v u i (hc v i h) (hc u i h'), hi.dsk, hi.dskN⟩
  · intro v d h
    rcases hp v d h with ⟨-, rfl⟩ | ⟨-, h⟩
    · exact ⟨Nat.lt_succ_self _, hna, hnm⟩
    · have := hi.held v d h
      exact ⟨Nat.lt_succ_of_lt this.1, this.2⟩
  · intro v u d h h'
    rcases hp v d h with ⟨h1, h2⟩ | ⟨-, h1⟩ <;> rcases hp u d h' with ⟨h3, h4⟩ | ⟨-, h3⟩
    · exact h1.trans h3.symm
    · rw [h2] at h3; exact absurd (hi.held u _ h3).1 (Nat.lt_irrefl _)
    · rw [h4] at h1; exact absurd (hi.held v _ h1).1 (Nat.lt_irrefl _)
    · exact hi.heldU v u d h1 h3
  · intro v d h
    by_cases hv : v = w
    · subst hv; rw [at_self] at h; cases h
    · rw [at_ne t _ hv] at h; exact hi.put v d h
  · intro d h; have := hi.arr d h; exact ⟨Nat.lt_succ_of_lt this.1, this.2⟩
  · intro d h; have := hi.mem d h; exact ⟨Nat.lt_succ_of_lt this.1, this.2⟩
  · intro d h
    by_cases hd : d = s.pos
    · subst hd
      exact Or.inl ⟨w, by rw [at_self]; exact Or.inl rfl⟩
    · have hlt : d < s.pos := by have : d < s.pos + 1 := h; omega
      rcases hi.all d hlt with ⟨v, hv⟩ | h | h
      · refine Or.inl ⟨v, ?_⟩
        have hne : v ≠ w := by rintro rfl; rw [hw] at hv; exact holds_next hv
        rw [at_ne t _ hne]; exact hv
      · exact Or.inr (Or.inl h)
      · exact Or.inr (Or.inr h)
  · intro v h
    by_cases hv : v = w
    · subst hv; rw [at_self] at h
      rcases h with h | ⟨i, h⟩ | h <;> cases h
    · rw [at_ne t _ hv] at h; exact hi.late v h

theorem inv_put {m : Nat} {disk : Nat → Option Nat} {s : St} {w d : Nat} (hi : Inv m disk s) (hw : s.pc w = .got d)
    (hd : (disk d).isSome = true) : Inv m disk (s.at w (.put d)) := by
  have hp : ∀ v e, ((s.at w (.put d)).pc v).holds e → (s.pc v).holds e := by
    intro v e h
    by_cases hv : v = w
    · subst hv; rw [at_self] at h
      rcases h with h | h
      · cases h
      · injection h with h; subst h; exact Or.inl hw
    · rw [at_ne s _ hv] at h; exact h
  have hc : ∀ v i, (s.at w (.put d)).pc v = .chk i → s.pc v = .chk i := by
    intro v i h
    by_cases hv : v = w
    · subst hv; rw [at_self] at h; cases h
    · rw [at_ne s _ hv] at h; exact h
  refine ⟨hi.pos, fun v e h => hi.held v e (hp v e h), fun v u e h h' => hi.heldU v u e (hp v e h) (hp u e h'), ?_,
    hi.arrN, hi.arr, hi.memN, hi.mem, ?_, ?_, fun v i h => hi.chk v i (hc v i h),
    fun v u i h h' => hi.chkU v u i (hc v i h) (hc u i h'), hi.dsk, hi.dskN⟩
  · intro v e h
    by_cases hv : v = w
    · subst hv; rw [at_self] at h; injection h with h; subst h; exact hd
    · rw [at_ne s _ hv] at h; exact hi.put v e h
  · intro e h
    rcases hi.all e h with ⟨v, hv⟩ | h | h
    · by_cases hne : v = w
      · subst hne; rw [hw] at hv
        rcases hv with h1 | h1
        · injection h1 with h1; subst h1; exact Or.inl ⟨v, by rw [at_self]; exact Or.inr rfl⟩
        · cases h1
      · exact Or.inl ⟨v, by rw [at_ne s _ hne]; exact hv⟩
    · exact Or.inr (Or.inl h)
    · exact Or.inr (Or.inr h)
  · intro v h
    by_cases hv : v = w
    · subst hv; rw [at_self] at h
      rcases h with h | ⟨i, h⟩ | h <;> cases h
    · rw [at_ne s _ hv] at h; exact hi.late v h

theorem getElem?_append_some {l : List Nat} {i d : Nat} (x : Nat) (h : l[i]? = some d) : (l ++ [x])[i]? = some d := by
  rw [List.getElem?_append_left (List.getElem?_eq_some_iff.mp h).1]; exact h

theorem nodup_snoc {l : List Nat} {x : Nat} (h : l.Nodup) (hx : x ∉ l) : (l ++ [x]).Nodup := by
  rw [List.nodup_append]
  refine ⟨h, by simp, ?_⟩
  intro a ha b hb
  rw [List.mem_singleton] at hb
  subst hb
  rintro rfl
  exact hx ha

/-- The downlink which a participant has goes to the array or to the leaves read from memory. -/
theorem inv_give {m : Nat} {disk : Nat → Option Nat} {s : St} {w d : Nat} (hi : Inv m disk s) (hw : (s.pc w).holds d)
    (a c : List Nat) (ha : (a = s.arr ++ [d] ∧ c = s.mem ∧ (disk d).isSome = true) ∨
      (a = s.arr ∧ c = s.mem ++ [d] ∧ (disk d).isSome = false)) :
    Inv m disk ({ s with arr := a, mem := c }.at w .next) := by
  let t : St := { s with arr := a, mem := c }
  have hp : ∀ v e, ((t.at w .next).pc v).holds e → v ≠ w ∧ (s.pc v).holds e := by
    intro v e h
    by_cases hv : v = w
    · subst hv; rw [at_self] at h; exact absurd h holds_next
    · rw [at_ne t _ hv] at h; exact ⟨hv, h⟩
  have hc : ∀ v i, (t.at w .next).pc v = .chk i → s.pc v = .chk i := by
    intro v i h
    by_cases hv : v = w
    · subst hv; rw [at_self] at h; cases h
    · rw [at_ne t _ hv] at h; exact h
  have hd := hi.held w d hw
  have hne : ∀ v e, ((t.at w .next).pc v).holds e → e ≠ d := by
    intro v e h
    have := hp v e h
    rintro rfl
    exact this.1 (hi.heldU v w e this.2 hw)
  have hsub : ∀ e, e ∈ a → e ∈ s.arr ∨ e = d ∧ (disk d).isSome = true := by
    intro e he
    rcases ha with ⟨rfl, -, h3⟩ | ⟨rfl, -, -⟩
    · rcases List.mem_append.mp he with h | h
      · exact Or.inl h
      · exact Or.inr ⟨by simpa using h, h3⟩
    · exact Or.inl he
  have hsubc : ∀ e, e ∈ c → e ∈ s.mem ∨ e = d ∧ (disk d).isSome = false := by
    intro e he
    rcases ha with ⟨-, rfl, -⟩ | ⟨-, rfl, h3⟩
    · exact Or.inl he
    · rcases List.mem_append.mp he with h | h
      · exact Or.inl h
      · exact Or.inr ⟨by simpa using h, h3⟩
  have hgea : ∀ e, e ∈ s.arr → e ∈ a := by
    intro e he
    rcases ha with ⟨rfl, -, -⟩ | ⟨rfl, -, -⟩
    · exact List.mem_append_left _ he
    · exact he
  have hgec : ∀ e, e ∈ s.mem → e ∈ c := by
    intro e he
    rcases ha with ⟨-, rfl, -⟩ | ⟨-, rfl, -⟩
    · exact he
    · exact List.mem_append_left _ he
  refine ⟨hi.pos, ?_, fun v u e h h' => hi.heldU v u e (hp v e h).2 (hp u e h').2, ?_, ?_, ?_, ?_, ?_, ?_, ?_,
    fun v i h => hi.chk v i (hc v i h), fun v u i h h' => hi.chkU v u i (hc v i h) (hc u i h'), ?_, hi.dskN⟩
  · intro v e h
    have h1 := hi.held v e (hp v e h).2
    refine ⟨h1.1, fun h2 => ?_, fun h2 => ?_⟩
    · rcases hsub e h2 with h3 | h3
      · exact h1.2.1 h3
      · exact hne v e h h3.1
    · rcases hsubc e h2 with h3 | h3
      · exact h1.2.2 h3
      · exact hne v e h h3.1
  · intro v e h
    by_cases hv : v = w
    · subst hv; rw [at_self] at h; cases h
    · rw [at_ne t _ hv] at h; exact hi.put v e h
  · show a.Nodup
    rcases ha with ⟨rfl, -, -⟩ | ⟨rfl, -, -⟩
    · exact nodup_snoc hi.arrN hd.2.1
    · exact hi.arrN
  · intro e he
    rcases hsub e he with h | ⟨rfl, h⟩
    · exact hi.arr e h
    · exact ⟨hd.1, h⟩
  · show c.Nodup
    rcases ha with ⟨-, rfl, -⟩ | ⟨-, rfl, -⟩
    · exact hi.memN
    · exact nodup_snoc hi.memN hd.2.2
  · intro e he
    rcases hsubc e he with h | ⟨rfl, h⟩
    · exact hi.mem e h
    · exact ⟨hd.1, h⟩
  · intro e he
    by_cases hed : e = d
    · subst hed
      rcases ha with ⟨rfl, -, -⟩ | ⟨-, rfl, -⟩
      · exact Or.inr (Or.inl (List.mem_append_right _ (by simp)))
      · exact Or.inr (Or.inr (List.mem_append_right _ (by simp)))
    · rcases hi.all e he with ⟨v, hv⟩ | h | h
      · refine Or.inl ⟨v, ?_⟩
        have hvw : v ≠ w := by
          rintro rfl
          rcases hv with h1 | h1 <;> rcases hw with h2 | h2 <;> rw [h1] at h2
          · injection h2 with h2; exact hed h2
          · cases h2
          · cases h2
          · injection h2 with h2; exact hed h2
        rw [at_ne t _ hvw]; exact hv
      · exact Or.inr (Or.inl (hgea e h))
      · exact Or.inr (Or.inr (hgec e h))
  · intro v h
    by_cases hv : v = w
    · subst hv; rw [at_self] at h
      rcases h with h | ⟨i, h⟩ | h <;> cases h
    · rw [at_ne t _ hv] at h; exact hi.late v h
  · intro i e h
    have h1 := hi.dsk i e h
    refine ⟨h1.1, h1.2.1, ?_⟩
    show a[i]? = some e
    rcases ha with ⟨rfl, -, -⟩ | ⟨rfl, -, -⟩
    · exact getElem?_append_some d h1.2.2
    · exact h1.2.2

/-- Sorting, when the array has not been sorted. -/
theorem inv_sort {m : Nat} {disk : Nat → Option Nat} {s : St} (hi : Inv m disk s) (hs : s.sorted = false) :
    Inv m disk { s with arr := sort (le disk) s.arr, idx := 0, sorted := true } := by
  have hperm := sort_perm (le disk) s.arr
  have hno : ∀ w i, s.pc w ≠ .chk i := by
    intro w i h
    have := hi.late w (Or.inr (Or.inl ⟨i, h⟩))
    rw [hs] at this; cases this
  have hnd : s.dsk = [] := by
    cases h : s.dsk with
    | nil => rfl
    | cons x l =>
      have := (hi.dsk x.1 x.2 (by rw [h]; simp)).1
      rw [hs] at this; cases this
  refine ⟨hi.pos, ?_, hi.heldU, hi.put, ?_, ?_, hi.memN, hi.mem, ?_, fun _ _ => rfl, fun v i h => absurd h (hno v i),
    hi.chkU, ?_, hi.dskN⟩
  · intro v e h
    have := hi.held v e h
    exact ⟨this.1, fun h2 => this.2.1 (hperm.mem_iff.mp h2), this.2.2⟩
  · exact hperm.nodup_iff.mpr hi.arrN
  · intro e he; exact hi.arr e (hperm.mem_iff.mp he)
  · intro e he
    rcases hi.all e he with h | h | h
    · exact Or.inl h
    · exact Or.inr (Or.inl (hperm.mem_iff.mpr h))
    · exact Or.inr (Or.inr h)
  · intro i e h
    rw [show ({ s with arr := sort (le disk) s.arr, idx := 0, sorted := true } : St).dsk = s.dsk from rfl, hnd] at h
    cases h

theorem inv_fetch {m : Nat} {disk : Nat → Option Nat} {s : St} {w : Nat} (hi : Inv m disk s) (hw : s.pc w = .fetch) :
    Inv m disk ({ s with idx := s.idx + 1 }.at w (.chk s.idx)) := by
  let t : St := { s with idx := s.idx + 1 }
  have hsort := hi.late w (Or.inl hw)
  have hp : ∀ v e, ((t.at w (.chk s.idx)).pc v).holds e → (s.pc v).holds e := by
    intro v e h
    by_cases hv : v = w
    · subst hv; rw [at_self] at h; rcases h with h | h <;> cases h
    · rw [at_ne t _ hv] at h; exact h
  have hc : ∀ v i, (t.at w (.chk s.idx)).pc v = .chk i → (v = w ∧ i = s.idx) ∨ (v ≠ w ∧ s.pc v = .chk i) := by
    intro v i h
    by_cases hv : v = w
    · subst hv; rw [at_self] at h; injection h with h; exact Or.inl ⟨rfl, h.symm⟩
    · rw [at_ne t _ hv] at h; exact Or.inr ⟨hv, h⟩
  refine ⟨hi.pos, fun v e h => hi.held v e (hp v e h), fun v u e h h' => hi.heldU v u e (hp v e h) (hp u e h'), ?_,
    hi.arrN, hi.arr, hi.memN, hi.mem, ?_, fun _ _ => hsort, ?_, ?_, ?_, hi.dskN⟩
  · intro v e h
    by_cases hv : v = w
    · subst hv; rw [at_self] at h; cases h
    · rw [at_ne t _ hv] at h; exact hi.put v e h
  · intro e h
    rcases hi.all e h with ⟨v, hv⟩ | h | h
    · refine Or.inl ⟨v, ?_⟩
      have hne : v ≠ w := by rintro rfl; rw [hw] at hv; rcases hv with h | h <;> cases h
      rw [at_ne t _ hne]; exact hv
    · exact Or.inr (Or.inl h)
    · exact Or.inr (Or.inr h)
  · intro v i h
    rcases hc v i h with ⟨-, rfl⟩ | ⟨-, h⟩
    · refine ⟨Nat.lt_succ_self _, fun d hd => ?_⟩
      exact Nat.lt_irrefl _ (hi.dsk _ d hd).2.1
    · have := hi.chk v i h
      exact ⟨Nat.lt_succ_of_lt this.1, this.2⟩
  · intro v u i h h'
    rcases hc v i h with ⟨rfl, h1⟩ | ⟨-, h1⟩ <;> rcases hc u i h' with ⟨rfl, h2⟩ | ⟨-, h2⟩
    · rfl
    · subst h1; exact absurd (hi.chk u _ h2).1 (Nat.lt_irrefl _)
    · subst h2; exact absurd (hi.chk v _ h1).1 (Nat.lt_irrefl _)
    · exact hi.chkU v u i h1 h2
  · intro i e h
    have := hi.dsk i e h
    exact ⟨this.1, Nat.lt_succ_of_lt this.2.1, this.2.2⟩

theorem inv_read {m : Nat} {disk : Nat → Option Nat} {s : St} {w i d : Nat} (hi : Inv m disk s) (hw : s.pc w = .chk i)
    (hd : s.arr[i]? = some d) : Inv m disk ({ s with dsk := s.dsk ++ [(i, d)] }.at w .fetch) := by
  let t : St := { s with dsk := s.dsk ++ [(i, d)] }
  have hsort := hi.late w (Or.inr (Or.inl ⟨i, hw⟩))
  have hwi := hi.chk w i hw
  have hp : ∀ v e, ((t.at w .fetch).pc v).holds e → (s.pc v).holds e := by
    intro v e h
    by_cases hv : v = w
    · subst hv; rw [at_self] at h; rcases h with h | h <;> cases h
    · rw [at_ne t _ hv] at h; exact h
  have hc : ∀ v j, (t.at w .fetch).pc v = .chk j → v ≠ w ∧ s.pc v = .chk j := by
    intro v j h
    by_cases hv : v = w
    · subst hv; rw [at_self] at h; cases h
    · rw [at_ne t _ hv] at h; exact ⟨hv, h⟩
  refine ⟨hi.pos, fun v e h => hi.held v e (hp v e h), fun v u e h h' => hi.heldU v u e (hp v e h) (hp u e h'), ?_,
    hi.arrN, hi.arr, hi.memN, hi.mem, ?_, fun _ _ => hsort, ?_,
    fun v u j h h' => hi.chkU v u j (hc v j h).2 (hc u j h').2, ?_, ?_⟩
  · intro v e h
    by_cases hv : v = w
    · subst hv; rw [at_self] at h; cases h
    · rw [at_ne t _ hv] at h; exact hi.put v e h
  · intro e h
    rcases hi.all e h with ⟨v, hv⟩ | h | h
    · refine Or.inl ⟨v, ?_⟩
      have hne : v ≠ w := by rintro rfl; rw [hw] at hv; rcases hv with h | h <;> cases h
      rw [at_ne t _ hne]; exact hv
    · exact Or.inr (Or.inl h)
    · exact Or.inr (Or.inr h)
  · intro v j h
    have h1 := hc v j h
    have h2 := hi.chk v j h1.2
    refine ⟨h2.1, fun e he => ?_⟩
    rcases List.mem_append.mp he with he | he
    · exact h2.2 e he
    · simp only [List.mem_singleton, Prod.mk.injEq] at he
      obtain ⟨rfl, rfl⟩ := he
      exact h1.1 (hi.chkU v w j h1.2 hw)
  · intro j e h
    rcases List.mem_append.mp h with h | h
    · exact hi.dsk j e h
    · simp only [List.mem_singleton, Prod.mk.injEq] at h
      obtain ⟨rfl, rfl⟩ := h
      exact ⟨hsort, hwi.1, hd⟩
  · show ((s.dsk ++ [(i, d)]).map (fun x => x.1)).Nodup
    rw [List.map_append]
    refine nodup_snoc hi.dskN ?_
    intro h
    rw [List.mem_map] at h
    obtain ⟨⟨j, e⟩, h1, h2⟩ := h
    dsimp only at h2
    subst h2
    exact hwi.2 e h1

theorem step_inv {n m : Nat} {disk : Nat → Option Nat} {s s' : St} {w : Nat} (hi : Inv m disk s)
    (hs : step n m disk s w = some s') : Inv m disk s' := by
  unfold step at hs
  split at hs
  · split at hs
    · rename_i hw
      split at hs
      · rename_i hlt
        injection hs with hs; subst hs
        exact inv_writers _ (inv_take hi hw hlt)
      · injection hs with hs; subst hs
        refine inv_move hi (by rw [hw]; intro d; exact holds_next) (by simp [Pc.holds]) ?_ (by simp)
        simp
    · rename_i d hw
      split at hs
      · rename_i hd
        injection hs with hs; subst hs
        exact inv_writers _ (inv_put hi hw hd)
      · rename_i hd
        injection hs with hs; subst hs
        exact inv_writers _ (inv_give hi (Or.inl hw) _ _ (Or.inr ⟨rfl, rfl, by simpa using hd⟩))
    · rename_i d hw
      injection hs with hs; subst hs
      exact inv_give hi (Or.inr hw) _ _ (Or.inl ⟨rfl, rfl, hi.put w d hw⟩)
    · rename_i hw
      split at hs
      · injection hs with hs; subst hs
        refine inv_move hi (by rw [hw]; simp [Pc.holds]) (by simp [Pc.holds]) ?_ (by simp)
        simp
      · injection hs with hs; subst hs; exact hi
    · rename_i hw
      split at hs
      · rename_i hsort
        injection hs with hs; subst hs
        exact inv_move hi (by rw [hw]; simp [Pc.holds]) (by simp [Pc.holds]) (fun _ => hsort) (by simp)
      · rename_i hsort
        injection hs with hs; subst hs
        refine inv_move (inv_sort hi (by simpa using hsort)) ?_ (by simp [Pc.holds]) (fun _ => rfl) (by simp)
        show ∀ d, ¬ (s.pc w).holds d
        rw [hw]; simp [Pc.holds]
    · rename_i hw
      injection hs with hs; subst hs
      exact inv_fetch hi hw
    · rename_i i hw
      split at hs
      · injection hs with hs; subst hs
        exact inv_move hi (by rw [hw]; simp [Pc.holds]) (by simp [Pc.holds])
          (fun _ => hi.late w (Or.inr (Or.inl ⟨i, hw⟩))) (by simp)
      · rename_i d hd
        injection hs with hs; subst hs
        exact inv_read hi hw hd
    · cases hs
  · cases hs

theorem run_inv {n m : Nat} {disk : Nat → Option Nat} : ∀ (ws : List Nat) (s s' : St), Inv m disk s →
    run n m disk s ws = some s' → Inv m disk s' := by
  intro ws
  induction ws with
  | nil => intro s s' hi hr; injection hr with hr; subst hr; exact hi
  | cons w ws ih =>
    intro s s' hi hr
    simp only [run] at hr
    cases hs : step n m disk s w with
    | none => rw [hs] at hr; cases hr
    | some s1 => rw [hs] at hr; exact ih s1 s' (step_inv hi hs) hr

/-- No leaf is read twice. -/
theorem inv_nodup {m : Nat} {disk : Nat → Option Nat} {s : St} (hi : Inv m disk s) : s.read.Nodup := by
  unfold St.read
  rw [List.nodup_append]
  refine ⟨hi.memN, ?_, ?_⟩
  · unfold List.Nodup
    rw [List.pairwise_map]
    have h1 := hi.dskN
    unfold List.Nodup at h1
    rw [List.pairwise_map] at h1
    refine List.Pairwise.imp_of_mem ?_ h1
    rintro ⟨i, d⟩ ⟨j, e⟩ ha hb hne heq
    dsimp only at *
    subst heq
    have h2 := (hi.dsk i d ha).2.2
    have h3 := (hi.dsk j d hb).2.2
    have := (List.getElem?_inj (List.getElem?_eq_some_iff.mp h2).1 hi.arrN).mp (h2.trans h3.symm)
    exact hne this
  · intro a ha b hb
    rw [List.mem_map] at hb
    obtain ⟨⟨i, d⟩, h1, rfl⟩ := hb
    rintro rfl
    have h2 := (hi.arr _ (List.mem_of_getElem? (hi.dsk i _ h1).2.2)).2
    have h3 := (hi.mem _ ha).2
    rw [h2] at h3
    cases h3

/-- What holds in addition as long as nothing is added to the array after the sorting. -/
structure Full (m : Nat) (s : St) : Prop where
  out : ∀ w, (s.pc w = .wait ∨ s.pc w = .sort ∨ s.pc w = .fetch ∨ (∃ i, s.pc w = .chk i) ∨ s.pc w = .done) → m ≤ s.pos
  idx : s.sorted = true → ∀ i, i < s.idx → i < s.arr.length → (∃ d, (i, d) ∈ s.dsk) ∨ ∃ w, s.pc w = .chk i
  fin : ∀ w, s.pc w = .done → s.arr.length < s.idx

theorem full_init (m : Nat) : Full m init := by
  constructor <;> simp [init]

theorem step_full {n m : Nat} {disk : Nat → Option Nat} {s s' : St} {w : Nat} (hi : Inv m disk s) (hf : Full m s)
    (hs : step n m disk s w = some s') (hl : ∀ d, s.pc w = .put d → s.sorted = false) : Full m s' := by
  -- the participant was not about to compare
  have hkeep : ∀ (t : St) (p : Pc), t.pc = s.pc → (∀ i, s.pc w ≠ .chk i) → ∀ i, (∃ v, s.pc v = .chk i) →
      ∃ v, (t.at w p).pc v = .chk i := by
    intro t p ht hne i ⟨v, hv⟩
    refine ⟨v, ?_⟩
    have : v ≠ w := by rintro rfl; exact hne i hv
    rw [at_ne t p this, ht]; exact hv
  have hpc : ∀ (t : St) (p : Pc), t.pc = s.pc → ∀ v q, (t.at w p).pc v = q → (v = w ∧ p = q) ∨ (v ≠ w ∧ s.pc v = q) := by
    intro t p ht v q h
    by_cases hv : v = w
    · subst hv; rw [at_self] at h; exact Or.inl ⟨rfl, h⟩
    · rw [at_ne t p hv, ht] at h; exact Or.inr ⟨hv, h⟩
  have hout : ∀ (t : St) (p : Pc), t.pc = s.pc → s.pos ≤ t.pos →
      ((p = .wait ∨ p = .sort ∨ p = .fetch ∨ (∃ i, p = .chk i) ∨ p = .done) → m ≤ t.pos) →
      ∀ v, ((t.at w p).pc v = .wait ∨ (t.at w p).pc v = .sort ∨ (t.at w p).pc v = .fetch ∨
        (∃ i, (t.at w p).pc v = .chk i) ∨ (t.at w p).pc v = .done) → m ≤ (t.at w p).pos := by
    intro t p ht hpos hp v h
    show m ≤ t.pos
    by_cases hv : v = w
    · subst hv; rw [at_self] at h; exact hp h
    · rw [at_ne t p hv, ht] at h; exact Nat.le_trans (hf.out v h) hpos
  unfold step at hs
  split at hs
  · split at hs
    · rename_i hw
      split at hs
      · injection hs with hs; subst hs
        refine ⟨hout _ _ rfl (Nat.le_succ _) (by simp), ?_, ?_⟩
        · intro h1 i h2 h3
          rcases hf.idx h1 i h2 h3 with h | h
          · exact Or.inl h
          · exact Or.inr (hkeep { s with pos := s.pos + 1, writers := s.writers + 1 } _ rfl (by simp [hw]) i h)
        · intro v h
          rcases hpc { s with pos := s.pos + 1, writers := s.writers + 1 } _ rfl v _ h with ⟨-, h⟩ | ⟨-, h⟩
          · cases h
          · exact hf.fin v h
      · rename_i hlt
        injection hs with hs; subst hs
        refine ⟨hout _ _ rfl (Nat.le_refl _) (fun _ => by omega), ?_, ?_⟩
        · intro h1 i h2 h3
          rcases hf.idx h1 i h2 h3 with h | h
          · exact Or.inl h
          · exact Or.inr (hkeep s _ rfl (by simp [hw]) i h)
        · intro v h
          rcases hpc s _ rfl v _ h with ⟨-, h⟩ | ⟨-, h⟩
          · cases h
          · exact hf.fin v h
    · rename_i d hw
      split at hs
      · injection hs with hs; subst hs
        refine ⟨hout _ _ rfl (Nat.le_refl _) (by simp), ?_, ?_⟩
        · intro h1 i h2 h3
          rcases hf.idx h1 i h2 h3 with h | h
          · exact Or.inl h
          · exact Or.inr (hkeep { s with writers := s.writers - 1 } _ rfl (by simp [hw]) i h)
        · intro v h
          rcases hpc { s with writers := s.writers - 1 } _ rfl v _ h with ⟨-, h⟩ | ⟨-, h⟩
          · cases h
          · exact hf.fin v h
      · injection hs with hs; subst hs
        refine ⟨hout _ _ rfl (Nat.le_refl _) (by simp), ?_, ?_⟩
        · intro h1 i h2 h3
          rcases hf.idx h1 i h2 h3 with h | h
          · exact Or.inl h
          · exact Or.inr (hkeep { s with writers := s.writers - 1, mem := s.mem ++ [d] } _ rfl (by simp [hw]) i h)
        · intro v h
          rcases hpc { s with writers := s.writers - 1, mem := s.mem ++ [d] } _ rfl v _ h with ⟨-, h⟩ | ⟨-, h⟩
          · cases h
          · exact hf.fin v h
    · rename_i d hw
      have hns := hl d hw
      injection hs with hs; subst hs
      refine ⟨hout _ _ rfl (Nat.le_refl _) (by simp), ?_, ?_⟩
      · intro h1
        have : s.sorted = true := h1
        rw [hns] at this; cases this
      · intro v h
        rcases hpc { s with arr := s.arr ++ [d] } _ rfl v _ h with ⟨-, h⟩ | ⟨-, h⟩
        · cases h
        · have := hi.late v (Or.inr (Or.inr h))
          rw [hns] at this; cases this
    · rename_i hw
      split at hs
      · injection hs with hs; subst hs
        refine ⟨hout _ _ rfl (Nat.le_refl _) (fun _ => hf.out w (Or.inl hw)), ?_, ?_⟩
        · intro h1 i h2 h3
          rcases hf.idx h1 i h2 h3 with h | h
          · exact Or.inl h
          · exact Or.inr (hkeep s _ rfl (by simp [hw]) i h)
        · intro v h
          rcases hpc s _ rfl v _ h with ⟨-, h⟩ | ⟨-, h⟩
          · cases h
          · exact hf.fin v h
      · injection hs with hs; subst hs; exact hf
    · rename_i hw
      split at hs
      · injection hs with hs; subst hs
        refine ⟨hout _ _ rfl (Nat.le_refl _) (fun _ => hf.out w (Or.inr (Or.inl hw))), ?_, ?_⟩
        · intro h1 i h2 h3
          rcases hf.idx h1 i h2 h3 with h | h
          · exact Or.inl h
          · exact Or.inr (hkeep s _ rfl (by simp [hw]) i h)
        · intro v h
          rcases hpc s _ rfl v _ h with ⟨-, h⟩ | ⟨-, h⟩
          · cases h
          · exact hf.fin v h
      · rename_i hsort
        injection hs with hs; subst hs
        refine ⟨hout _ _ rfl (Nat.le_refl _) (fun _ => hf.out w (Or.inr (Or.inl hw))), ?_, ?_⟩
        · intro _ i h2
          have : i < 0 := h2
          omega
        · intro v h
          rcases hpc { s with arr := sort (le disk) s.arr, idx := 0, sorted := true } _ rfl v _ h with ⟨-, h⟩ | ⟨-, h⟩
          · cases h
          · exact absurd (hi.late v (Or.inr (Or.inr h))) hsort
    · rename_i hw
      injection hs with hs; subst hs
      refine ⟨hout _ _ rfl (Nat.le_refl _) (fun _ => hf.out w (Or.inr (Or.inr (Or.inl hw)))), ?_, ?_⟩
      · intro h1 i h2 h3
        by_cases he : i = s.idx
        · subst he; exact Or.inr ⟨w, at_self _ _ _⟩
        · have h2' : i < s.idx + 1 := h2
          rcases hf.idx h1 i (by omega) h3 with h | h
          · exact Or.inl h
          · exact Or.inr (hkeep { s with idx := s.idx + 1 } _ rfl (by simp [hw]) i h)
      · intro v h
        rcases hpc { s with idx := s.idx + 1 } _ rfl v _ h with ⟨-, h⟩ | ⟨-, h⟩
        · cases h
        · exact Nat.lt_succ_of_lt (hf.fin v h)
    · rename_i j hw
      have hj := hi.chk w j hw
      split at hs
      · rename_i hd
        have hle : s.arr.length ≤ j := List.getElem?_eq_none_iff.mp hd
        injection hs with hs; subst hs
        refine ⟨hout _ _ rfl (Nat.le_refl _) (fun _ => hf.out w (Or.inr (Or.inr (Or.inr (Or.inl ⟨j, hw⟩))))), ?_, ?_⟩
        · intro h1 i h2 h3
          rcases hf.idx h1 i h2 h3 with h | ⟨v, hv⟩
          · exact Or.inl h
          · refine Or.inr ⟨v, ?_⟩
            have h3' : i < s.arr.length := h3
            have : v ≠ w := by
              rintro rfl
              rw [hw] at hv
              injection hv with hv
              omega
            rw [at_ne s _ this]; exact hv
        · intro v _
          show s.arr.length < s.idx
          omega
      · rename_i d hd
        injection hs with hs; subst hs
        refine ⟨hout _ _ rfl (Nat.le_refl _) (fun _ => hf.out w (Or.inr (Or.inr (Or.inr (Or.inl ⟨j, hw⟩))))), ?_, ?_⟩
        · intro h1 i h2 h3
          rcases hf.idx h1 i h2 h3 with ⟨e, h⟩ | ⟨v, hv⟩
          · exact Or.inl ⟨e, List.mem_append_left _ h⟩
          · by_cases hvw : v = w
            · subst hvw
              rw [hw] at hv
              injection hv with hv
              subst hv
              exact Or.inl ⟨d, List.mem_append_right _ (by simp)⟩
            · exact Or.inr ⟨v, by rw [at_ne { s with dsk := s.dsk ++ [(j, d)] } _ hvw]; exact hv⟩
        · intro v h
          rcases hpc { s with dsk := s.dsk ++ [(j, d)] } _ rfl v _ h with ⟨-, h⟩ | ⟨-, h⟩
          · cases h
          · exact hf.fin v h
    · cases hs
  · cases hs

/-- Nobody adds a downlink to the array after it has been sorted. -/
def Timely (n m : Nat) (disk : Nat → Option Nat) (s : St) (ws : List Nat) : Prop :=
  ∀ pre w post t d, ws = pre ++ w :: post → run n m disk s pre = some t → t.pc w = .put d → t.sorted = false

theorem run_full {n m : Nat} {disk : Nat → Option Nat} : ∀ (ws : List Nat) (s s' : St), Inv m disk s → Full m s →
    run n m disk s ws = some s' → Timely n m disk s ws → Full m s' := by
  intro ws
  induction ws with
  | nil => intro s s' _ hf hr _; injection hr with hr; subst hr; exact hf
  | cons w ws ih =>
    intro s s' hi hf hr ht
    simp only [run] at hr
    cases hs : step n m disk s w with
    | none => rw [hs] at hr; cases hr
    | some s1 =>
      rw [hs] at hr
      refine ih s1 s' (step_inv hi hs) (step_full hi hf hs (fun d hd => ht [] w ws s d rfl rfl hd)) hr ?_
      intro pre v post t d he hp hv
      refine ht (w :: pre) v post t d (by rw [he]; rfl) ?_ hv
      simp only [run, hs]
      exact hp

/-- Only the participants take steps. -/
theorem run_idle {n m : Nat} {disk : Nat → Option Nat} : ∀ (ws : List Nat) (s s' : St),
    run n m disk s ws = some s' → ∀ v, n ≤ v → s'.pc v = s.pc v := by
  intro ws
  induction ws with
  | nil => intro s s' hr v _; injection hr with hr; subst hr; rfl
  | cons w ws ih =>
    intro s s' hr v hv
    simp only [run] at hr
    cases hs : step n m disk s w with
    | none => rw [hs] at hr; cases hr
    | some s1 =>
      rw [hs] at hr
      rw [ih s1 s' hr v hv]
      unfold step at hs
      split at hs
      · have hne : v ≠ w := by omega
        split at hs <;> (try split at hs) <;> first
          | (injection hs with hs; subst hs; first | rfl | (rw [at_ne _ _ hne]))
          | cases hs
      · cases hs

/-- If all have finished, all leaves have been read. -/
theorem all_read {n m : Nat} {disk : Nat → Option Nat} {s : St} (hn : 0 < n) (hi : Inv m disk s) (hf : Full m s)
    (hid : ∀ v, n ≤ v → s.pc v = .next) (hd : s.finished n) : ∀ d, d < m → d ∈ s.read := by
  intro d hlt
  have h0 := hd 0 hn
  have hpos := hf.out 0 (Or.inr (Or.inr (Or.inr (Or.inr h0))))
  have hno : ∀ v, s.pc v = .done ∨ s.pc v = .next := by
    intro v
    by_cases hv : v < n
    · exact Or.inl (hd v hv)
    · exact Or.inr (hid v (by omega))
  rcases hi.all d (by omega) with ⟨v, hv⟩ | h | h
  · rcases hno v with h1 | h1 <;> rw [h1] at hv <;> rcases hv with h2 | h2 <;> cases h2
  · obtain ⟨i, hlt', he⟩ := List.mem_iff_getElem.mp h
    have hfin := hf.fin 0 h0
    rcases hf.idx (hi.late 0 (Or.inr (Or.inr h0))) i (by omega) hlt' with ⟨e, h1⟩ | ⟨v, h1⟩
    · have h2 := (hi.dsk i e h1).2.2
      rw [List.getElem?_eq_getElem hlt', he] at h2
      injection h2 with h2
      subst h2
      exact List.mem_append_right _ (List.mem_map.mpr ⟨(i, d), h1, rfl⟩)
    · rcases hno v with h2 | h2 <;> rw [h2] at h1 <;> cases h1
  · exact List.mem_append_left _ h

/-- The same, to be computed. -/
def timely (n m : Nat) (disk : Nat → Option Nat) (s : St) : List Nat → Bool
  | [] => true
  | w :: ws =>
    (match s.pc w with | .put _ => !s.sorted | _ => true) &&
    match step n m disk s w with
    | none => true
    | some s' => timely n m disk s' ws

theorem timely_of {n m : Nat} {disk : Nat → Option Nat} : ∀ (ws : List Nat) (s : St), timely n m disk s ws = true →
    Timely n m disk s ws := by
  intro ws
  induction ws with
  | nil => intro s _ pre w post t d he; cases pre <;> cases he
  | cons v ws ih =>
    intro s h pre w post t d he hr hpc
    simp only [timely, Bool.and_eq_true] at h
    cases pre with
    | nil =>
      injection he with h1 h2
      injection hr with hr
      subst hr h1
      have := h.1
      rw [hpc] at this
      simpa using this
    | cons u pre =>
      injection he with h1 h2
      subst h1
      simp only [run] at hr
      cases hs : step n m disk s v with
      | none => rw [hs] at hr; cases hr
      | some s1 =>
        rw [hs] at hr
        have h3 := h.2
        rw [hs] at h3
        exact ih s1 h3 pre w post t d h2 hr hpc

/-- One participant alone adds nothing after the sorting. -/
theorem one_timely {m : Nat} {disk : Nat → Option Nat} (ws : List Nat) : Timely 1 m disk init ws := by
  have key : ∀ (ws : List Nat) (s t : St), (s.sorted = true → s.pc 0 = .fetch ∨ (∃ i, s.pc 0 = .chk i) ∨ s.pc 0 = .done) →
      run 1 m disk s ws = some t → (t.sorted = true → t.pc 0 = .fetch ∨ (∃ i, t.pc 0 = .chk i) ∨ t.pc 0 = .done) := by
    intro ws
    induction ws with
    | nil => intro s t h hr; injection hr with hr; subst hr; exact h
    | cons w ws ih =>
      intro s t h hr
      simp only [run] at hr
      cases hs : step 1 m disk s w with
      | none => rw [hs] at hr; cases hr
      | some s1 =>
        rw [hs] at hr
        refine ih s1 t ?_ hr
        unfold step at hs
        split at hs
        · rename_i hw
          have hw0 : w = 0 := by omega
          subst hw0
          split at hs <;> rename_i hpc
          · split at hs <;> (injection hs with hs; subst hs; intro h1; rw [hpc] at h; simpa using h h1)
          · split at hs <;> (injection hs with hs; subst hs; intro h1; rw [hpc] at h; simpa using h h1)
          · injection hs with hs; subst hs; intro h1; rw [hpc] at h; simpa using h h1
          · split at hs <;> (injection hs with hs; subst hs; intro h1; rw [hpc] at h; simpa using h h1)
          · split at hs <;> (injection hs with hs; subst hs; intro _; left; exact at_self _ _ _)
          · injection hs with hs; subst hs; intro _; right; left; exact ⟨_, at_self _ _ _⟩
          · split at hs
            · injection hs with hs; subst hs; intro _; right; right; exact at_self _ _ _
            · injection hs with hs; subst hs; intro _; left; exact at_self _ _ _
          · cases hs
        · cases hs
  intro pre w post t d he hr hpc
  have h := key pre init t (by simp [init]) hr
  cases hsort : t.sorted with
  | false => rfl
  | true =>
    have h := h hsort
    by_cases hw : w = 0
    · subst hw; rw [hpc] at h
      rcases h with h | ⟨i, h⟩ | h <;> cases h
    · have := run_idle pre init t hr w (by omega)
      rw [hpc] at this
      cases this

end Verif.SeqScan.Share
