import Verif.SeqScan.Filter

/-!
# The filter by a range of keys: lemmas
-/

namespace Verif.SeqScan.Filter

/-- Is a key in the range? -/
def inR (lo hi k : Nat) : Bool := decide (lo ≤ k ∧ k ≤ hi)

theorem emit_eq (lo hi : Nat) : ∀ (ks : List Nat) (e : Bool), ks.Pairwise (· < ·) → (e = true → ∀ k ∈ ks, lo ≤ k) →
    (emit lo hi e ks).1 = ks.filter (inR lo hi) ∧ ((emit lo hi e ks).2 = true → ∃ k ∈ ks, hi < k) := by
  intro ks
  induction ks with
  | nil => intro e _ _; exact ⟨rfl, fun h => by cases h⟩
  | cons k ks ih =>
    intro e hs he
    rw [List.pairwise_cons] at hs
    unfold emit
    split
    · rename_i hc
      simp only [Bool.and_eq_true, Bool.not_eq_true', decide_eq_true_eq] at hc
      have := ih false hs.2 (fun h => by cases h)
      refine ⟨?_, fun h => ?_⟩
      · rw [this.1, List.filter_cons_of_neg]
        simp [inR]; omega
      · obtain ⟨j, hj, h1⟩ := this.2 h
        exact ⟨j, List.mem_cons_of_mem _ hj, h1⟩
    · rename_i hc
      have hlo : lo ≤ k := by
        cases e with
        | true => exact he rfl k (by simp)
        | false => simpa using hc
      split
      · rename_i hk
        refine ⟨?_, fun _ => ⟨k, by simp, hk⟩⟩
        symm
        apply List.filter_eq_nil_iff.mpr
        intro a ha
        rcases List.mem_cons.mp ha with rfl | ha
        · simp [inR]; omega
        · have := hs.1 a ha
          simp [inR]; omega
      · rename_i hk
        have := ih true hs.2 (fun _ a ha => by have := hs.1 a ha; omega)
        refine ⟨?_, fun h => ?_⟩
        · rw [List.filter_cons_of_pos (by simp [inR]; omega), ← this.1]
        · obtain ⟨j, hj, h1⟩ := this.2 h
          exact ⟨j, List.mem_cons_of_mem _ hj, h1⟩

/-- The rows of a leaf which is between its bounds. -/
def Good (l : Leaf) : Prop :=
  (∀ k ∈ l.rows, (∀ a, l.low = some a → a ≤ k) ∧ (∀ h, l.high = some h → k < h)) ∧ l.rows.Pairwise (· < ·)

theorem page_eq (lo hi : Nat) {l : Leaf} (hl : Good l) :
    (page lo hi l).1 = l.rows.filter (inR lo hi) ∧ ((page lo hi l).2 = true → ∃ k ∈ l.rows, hi < k) := by
  unfold page
  split
  · rename_i hf
    refine ⟨?_, fun h => by cases h⟩
    symm
    rw [List.filter_eq_self]
    intro k hk
    have := hl.1 k hk
    unfold Leaf.fully at hf
    cases ha : l.low with
    | none => rw [ha] at hf; simp at hf
    | some a =>
      cases hh : l.high with
      | none => rw [hh] at hf; simp at hf
      | some h =>
        rw [ha, hh] at hf
        simp only [Bool.and_eq_true, decide_eq_true_eq] at hf
        have h1 := this.1 a ha
        have h2 := this.2 h hh
        simp [inR]; omega
  · exact emit_eq lo hi l.rows false hl.2 (fun h => by cases h)

theorem before_nil {lo hi : Nat} {l : Leaf} (hl : Good l) (hb : l.before lo = true) : l.rows.filter (inR lo hi) = [] := by
  apply List.filter_eq_nil_iff.mpr
  intro k hk
  unfold Leaf.before at hb
  cases hh : l.high with
  | none => rw [hh] at hb; cases hb
  | some h =>
    rw [hh] at hb
    have := (hl.1 k hk).2 h hh
    simp only [decide_eq_true_eq] at hb
    simp [inR]; omega

theorem past_nil {lo hi : Nat} {l : Leaf} (hl : Good l) (hb : l.past hi = true) : l.rows.filter (inR lo hi) = [] := by
  apply List.filter_eq_nil_iff.mpr
  intro k hk
  unfold Leaf.past at hb
  cases hh : l.low with
  | none => rw [hh] at hb; cases hb
  | some h =>
    rw [hh] at hb
    have := (hl.1 k hk).1 h hh
    simp only [decide_eq_true_eq] at hb
    simp [inR]; omega

/-- All leaves from a key past the range on are past the range. -/
theorem tree_past {hi : Nat} : ∀ (ls : List Leaf) (a : Nat), Tree (some a) ls → hi < a → ∀ l ∈ ls, l.past hi = true := by
  intro ls
  induction ls with
  | nil => intro a _ _ l h; cases h
  | cons x ls ih =>
    intro a ht ha l hl
    obtain ⟨h1, h2, h3, h4, h5, h6⟩ := ht
    rcases List.mem_cons.mp hl with rfl | hm
    · unfold Leaf.past; rw [h1]; simpa using ha
    · have hne : ls ≠ [] := by intro h; rw [h] at hm; cases hm
      obtain ⟨h, hh⟩ := h5 hne
      have := h4 a h h1 hh
      rw [hh] at h6
      exact ih h h6 (by omega) l hm

theorem tree_good : ∀ (ls : List Leaf) (a : Option Nat), Tree a ls → ∀ l ∈ ls, Good l := by
  intro ls
  induction ls with
  | nil => intro a _ l h; cases h
  | cons x ls ih =>
    intro a ht l hl
    obtain ⟨h1, h2, h3, h4, h5, h6⟩ := ht
    rcases List.mem_cons.mp hl with rfl | hm
    · exact ⟨h2, h3⟩
    · exact ih _ h6 l hm

/-- The rows in the range. -/
def spec (lo hi : Nat) (ls : List Leaf) : List Nat := (ls.flatMap (fun l => l.rows)).filter (inR lo hi)

theorem spec_cons (lo hi : Nat) (l : Leaf) (ls : List Leaf) :
    spec lo hi (l :: ls) = l.rows.filter (inR lo hi) ++ spec lo hi ls := by
  simp [spec, List.filter_append]

theorem spec_nil_of {lo hi : Nat} {ls : List Leaf} (h : ∀ l ∈ ls, l.rows.filter (inR lo hi) = []) : spec lo hi ls = [] := by
  induction ls with
  | nil => rfl
  | cons x ls ih =>
    rw [spec_cons, h x (by simp), ih (fun l hl => h l (List.mem_cons_of_mem _ hl))]; rfl

/-- If a leaf is past the range, or has a row past it, the leaves behind it have nothing of the range. -/
theorem rest_nil {lo hi : Nat} {l : Leaf} {ls : List Leaf} {a : Option Nat} (ht : Tree a (l :: ls))
    (h : l.past hi = true ∨ ∃ k ∈ l.rows, hi < k) : spec lo hi ls = [] := by
  apply spec_nil_of
  intro x hx
  have hg := tree_good _ _ ht x (List.mem_cons_of_mem _ hx)
  apply past_nil hg
  obtain ⟨h1, h2, h3, h4, h5, h6⟩ := ht
  have hne : ls ≠ [] := by rintro rfl; cases hx
  obtain ⟨b, hb⟩ := h5 hne
  rw [hb] at h6
  refine tree_past ls b h6 ?_ x hx
  rcases h with h | ⟨k, hk, hlt⟩
  · unfold Leaf.past at h
    cases ha : l.low with
    | none => rw [ha] at h; cases h
    | some a =>
      rw [ha] at h
      have := h4 a b ha hb
      simp only [decide_eq_true_eq] at h
      omega
  · have := (h2 k hk).2 b hb
    omega

theorem ordered_eq {lo hi : Nat} : ∀ (ls : List Leaf) (a : Option Nat), Tree a ls → ordered lo hi ls = spec lo hi ls := by
  intro ls
  induction ls with
  | nil => intro a _; rfl
  | cons l ls ih =>
    intro a ht
    have hg := tree_good _ _ ht l (by simp)
    have ht' := ht.2.2.2.2.2
    rw [spec_cons]
    unfold ordered
    split
    · rename_i hb
      rw [before_nil hg hb, ih _ ht']; rfl
    · split
      · rename_i hp
        rw [past_nil hg hp, rest_nil ht (Or.inl hp)]; rfl
      · have hpg := page_eq lo hi hg
        dsimp only
        split
        · rename_i hf
          rw [hpg.1, rest_nil ht (Or.inr (hpg.2 hf))]; simp
        · rw [hpg.1, ih _ ht']

/-- With all leaves in memory the scan is that in order. -/
theorem inMemory_all {lo hi : Nat} : ∀ (ls : List Leaf), (∀ l ∈ ls, l.place = none) →
    (inMemory lo hi ls).1 = ordered lo hi ls ∧ (inMemory lo hi ls).2.1 = [] := by
  intro ls
  induction ls with
  | nil => intro _; exact ⟨rfl, rfl⟩
  | cons l ls ih =>
    intro h
    have hl := h l (by simp)
    have := ih (fun x hx => h x (List.mem_cons_of_mem _ hx))
    unfold inMemory ordered
    split
    · exact this
    · split
      · exact ⟨rfl, rfl⟩
      · rw [hl]
        dsimp only
        split
        · exact ⟨rfl, rfl⟩
        · exact ⟨by rw [this.1], this.2⟩

theorem scan_memory {lo hi : Nat} {ls : List Leaf} (h : ∀ l ∈ ls, l.place = none) :
    scan lo hi ls = ordered lo hi ls := by
  have := inMemory_all (lo := lo) (hi := hi) ls h
  unfold scan
  dsimp only
  split
  · exact this.1
  · rw [this.1, this.2]
    simp [onDisk, sort]

/-- No leaf has both a row past the range and rows which could belong to it. -/
def Split (hi : Nat) (ls : List Leaf) : Prop := ∀ l ∈ ls, l.past hi = true ∨ ∀ k ∈ l.rows, k ≤ hi

theorem onDisk_eq {lo hi : Nat} : ∀ (ls : List Leaf), (∀ l ∈ ls, Good l ∧ ∀ k ∈ l.rows, k ≤ hi) →
    onDisk lo hi ls = spec lo hi ls := by
  intro ls
  induction ls with
  | nil => intro _; rfl
  | cons l ls ih =>
    intro h
    have hl := h l (by simp)
    have := ih (fun x hx => h x (List.mem_cons_of_mem _ hx))
    rw [spec_cons]
    unfold onDisk
    split
    · rename_i hb
      rw [before_nil hl.1 hb, this]; rfl
    · have hpg := page_eq lo hi hl.1
      dsimp only
      split
      · rename_i hf
        obtain ⟨k, hk, hlt⟩ := hpg.2 hf
        have := hl.2 k hk
        omega
      · rw [hpg.1, this]

theorem inMemory_split {lo hi : Nat} : ∀ (ls : List Leaf) (a : Option Nat), Tree a ls → Split hi ls →
    (inMemory lo hi ls).2.2 = false ∧
    (∀ l ∈ (inMemory lo hi ls).2.1, Good l ∧ ∀ k ∈ l.rows, k ≤ hi) ∧
    ((inMemory lo hi ls).1 ++ spec lo hi (inMemory lo hi ls).2.1).Perm (spec lo hi ls) := by
  intro ls
  induction ls with
  | nil => intro a _ _; exact ⟨rfl, fun l h => (by cases h), List.Perm.refl _⟩
  | cons l ls ih =>
    intro a ht hsp
    have hg := tree_good _ _ ht l (by simp)
    have ht' := ht.2.2.2.2.2
    obtain ⟨i1, i2, i3⟩ := ih _ ht' (fun x hx => hsp x (List.mem_cons_of_mem _ hx))
    rw [spec_cons]
    unfold inMemory
    split
    · rename_i hb
      rw [before_nil hg hb]
      exact ⟨i1, i2, i3⟩
    · split
      · rename_i hp
        rw [past_nil hg hp, rest_nil ht (Or.inl hp)]
        exact ⟨rfl, fun l h => (by cases h), List.Perm.refl _⟩
      · rename_i hp
        have hle : ∀ k ∈ l.rows, k ≤ hi := (hsp l (by simp)).resolve_left hp
        cases hpl : l.place with
        | some p =>
          dsimp only
          refine ⟨i1, ?_, ?_⟩
          · intro x hx
            rcases List.mem_cons.mp hx with rfl | hx
            · exact ⟨hg, hle⟩
            · exact i2 x hx
          · rw [spec_cons, ← List.append_assoc]
            refine (List.perm_append_comm.append_right _).trans ?_
            rw [List.append_assoc]
            exact i3.append_left _
        | none =>
          have hpg := page_eq lo hi hg
          dsimp only
          split
          · rename_i hf
            obtain ⟨k, hk, hlt⟩ := hpg.2 hf
            have := hle k hk
            omega
          · refine ⟨i1, i2, ?_⟩
            dsimp only
            rw [hpg.1, List.append_assoc]
            exact i3.append_left _

theorem spec_perm {lo hi : Nat} {a b : List Leaf} (h : a.Perm b) : (spec lo hi a).Perm (spec lo hi b) := by
  unfold spec
  exact (h.flatMap_right _).filter _

theorem scan_split {lo hi : Nat} {ls : List Leaf} {a : Option Nat} (ht : Tree a ls) (hs : Split hi ls) :
    (scan lo hi ls).Perm (spec lo hi ls) := by
  obtain ⟨i1, i2, i3⟩ := inMemory_split (lo := lo) ls a ht hs
  have hp := sort_perm le (inMemory lo hi ls).2.1
  unfold scan
  dsimp only
  rw [i1, if_neg (by simp), onDisk_eq _ (fun l hl => i2 l (hp.mem_iff.mp hl))]
  exact ((spec_perm hp).append_left _).trans i3

end Verif.SeqScan.Filter
