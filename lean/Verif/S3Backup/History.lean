import Verif.S3Backup.BigProofs

/-! # Series of backups -/

namespace Verif.S3Backup

/-- Names are not repeated among the files of a backup. -/
def Distinct (F : List (Bytes × Bytes)) : Prop := (F.map Prod.fst).Nodup

theorem Distinct.func {F : List (Bytes × Bytes)} (h : Distinct F) {x d d' : Bytes} (h1 : (x, d) ∈ F)
    (h2 : (x, d') ∈ F) : d = d' := by
  induction F with
  | nil => cases h1
  | cons p F ih =>
    unfold Distinct at h ih
    rw [List.map_cons, List.nodup_cons] at h
    rcases List.mem_cons.1 h1 with e1 | k1 <;> rcases List.mem_cons.1 h2 with e2 | k2
    · rw [← e1] at e2
      cases e2
      rfl
    · subst e1
      exact absurd (List.mem_map.2 ⟨_, k2, rfl⟩) h.1
    · subst e2
      exact absurd (List.mem_map.2 ⟨_, k1, rfl⟩) h.1
    · exact ih h.2 k1 k2

/-- What holds between backups: each listed file is in the bucket under its number with contents of this checksum. -/
structure HInv (H : Bytes → Bytes) (C : Bytes → Prop) (num : Nat) (T : List Entry)
    (O : Nat → List (Bytes × Bytes)) : Prop where
  src : ∀ e ∈ T, 1 ≤ e.ck ∧ e.ck ≤ num ∧ ∃ d, (e.name, d) ∈ O e.ck ∧ H d = e.sum
  func : ∀ k x d d', (x, d) ∈ O k → (x, d') ∈ O k → d = d'
  above : ∀ k, num < k → O k = []
  cont : ∀ k x d, (x, d) ∈ O k → C d

/-- No listed file has been uploaded again since. -/
def Later (T : List Entry) (O : Nat → List (Bytes × Bytes)) : Prop :=
  ∀ e ∈ T, ∀ j, e.ck < j → ∀ d, (e.name, d) ∉ O j

section
variable {H : Bytes → Bytes} {C : Bytes → Prop} {num : Nat} {T : List Entry} {O : Nat → List (Bytes × Bytes)}

theorem HInv.step (h : HInv H C num T O) {F o : List (Bytes × Bytes)} {t : List Entry} (hF : Distinct F)
    (hC : ∀ p ∈ F, C p.2) (ho : ∀ p ∈ o, p ∈ F)
    (ht : ∀ e ∈ t, e ∈ T ∨ ∃ p ∈ F, e = ent H (num + 1) T p ∧ (chg H (num + 1) T p = true → p ∈ o)) :
    HInv H C (num + 1) t (fun k => if k = num + 1 then o else O k) := by
  have old : ∀ e ∈ T, 1 ≤ e.ck ∧ e.ck ≤ num + 1
      ∧ ∃ d, (e.name, d) ∈ (if e.ck = num + 1 then o else O e.ck) ∧ H d = e.sum := by
    intro e he
    obtain ⟨h1, h2, h3⟩ := h.src e he
    refine ⟨h1, by omega, ?_⟩
    rw [if_neg (by omega)]
    exact h3
  refine ⟨?_, ?_, ?_, ?_⟩
  · intro e he
    rcases ht e he with he | ⟨p, hp, rfl, hpo⟩
    · exact old e he
    · cases hc : chg H (num + 1) T p with
      | true =>
        rw [ent_changed hc]
        refine ⟨by simp, by simp, p.2, ?_, rfl⟩
        simp only [if_true]
        exact hpo hc
      | false =>
        obtain ⟨x, hx, hn, hs, he'⟩ := ent_unchanged hc
        rw [he']
        obtain ⟨a, b, d, c1, c2⟩ := old x hx
        exact ⟨a, b, d, by rw [← hn]; exact c1, by rw [c2, hs]⟩
  · intro k x d d' h1 h2
    split at h1
    · rename_i hk
      rw [if_pos hk] at h2
      exact hF.func (ho _ h1) (ho _ h2)
    · rename_i hk
      rw [if_neg hk] at h2
      exact h.func k x d d' h1 h2
  · intro k hk
    rw [if_neg (by omega)]
    exact h.above k (by omega)
  · intro k x d h1
    split at h1
    · exact hC _ (ho _ h1)
    · exact h.cont k x d h1

/-- An entry of the new list leads to the contents of its file. -/
theorem HInv.content (h : HInv H C num T O) {p : Bytes × Bytes} {d : Bytes} {o : List (Bytes × Bytes)}
    (hinj : ∀ a b, C a → C b → H a = H b → a = b) (hp : C p.2) (ho : (p.1, d) ∈ o → d = p.2)
    (hd : (p.1, d) ∈ (fun k => if k = num + 1 then o else O k) (ent H (num + 1) T p).ck) : d = p.2 := by
  cases hc : chg H (num + 1) T p with
  | true =>
    rw [ent_changed hc] at hd
    simp only [if_true] at hd
    exact ho hd
  | false =>
    obtain ⟨x, hx, hn, hs, he⟩ := ent_unchanged hc
    rw [he] at hd
    obtain ⟨a, b, d', c1, c2⟩ := h.src x hx
    simp only at hd
    rw [if_neg (by omega)] at hd
    rw [hn] at c1
    have hdd := h.func _ _ _ _ hd c1
    subst hdd
    exact hinj _ _ (h.cont _ _ _ hd) hp (by rw [c2, hs])

theorem Later.step (h : HInv H C num T O) (hl : Later T O) {F o : List (Bytes × Bytes)} {t : List Entry}
    (hF : Distinct F) (ho : ∀ p ∈ o, p ∈ F ∧ chg H (num + 1) T p = true)
    (ht : ∀ e ∈ t, ∃ p ∈ F, e = ent H (num + 1) T p) : Later t (fun k => if k = num + 1 then o else O k) := by
  intro e he j hj d hd
  obtain ⟨p, hp, rfl⟩ := ht e he
  rw [ent_name] at hd
  simp only at hd
  cases hc : chg H (num + 1) T p with
  | true =>
    rw [ent_changed hc] at hj
    simp only at hj
    rw [if_neg (by omega), h.above j (by omega)] at hd
    cases hd
  | false =>
    obtain ⟨x, hx, hn, hs, he'⟩ := ent_unchanged hc
    rw [he'] at hj
    split at hd
    · obtain ⟨h1, h2⟩ := ho _ hd
      have : d = p.2 := hF.func h1 hp
      rw [this] at h2
      rw [h2] at hc
      cases hc
    · rw [← hn] at hd
      exact hl x hx j hj d hd
end

/-! ## Writing files -/

theorem foldl_put_old : ∀ (l : List (Bytes × Bytes)) (fs : Fs) (x : Bytes), (∀ d, (x, d) ∉ l) →
    l.foldl (fun fs y => fs.put y.1 y.2) fs x = fs x
  | [], _, _, _ => rfl
  | (y, d) :: l, fs, x, h => by
    rw [List.foldl_cons, foldl_put_old l _ x (fun d' hd => h d' (by simp [hd]))]
    have : x ≠ y := by
      rintro rfl
      exact h d (by simp)
    simp [Fs.put, this]

theorem foldl_put_sound : ∀ (l : List (Bytes × Bytes)) (fs : Fs) (x d : Bytes),
    l.foldl (fun fs y => fs.put y.1 y.2) fs x = some d → fs x = some d ∨ (x, d) ∈ l
  | [], _, _, _, h => .inl h
  | (y, d') :: l, fs, x, d, h => by
    rw [List.foldl_cons] at h
    rcases foldl_put_sound l _ x d h with h | h
    · unfold Fs.put at h
      split at h
      · rename_i hxy
        cases h
        right
        simp [hxy]
      · exact .inl h
    · exact .inr (by simp [h])

theorem foldl_put_new (l : List (Bytes × Bytes)) (fs : Fs) (x d : Bytes) (hf : ∀ d', (x, d') ∈ l → d' = d)
    (h : (x, d) ∈ l) : l.foldl (fun fs y => fs.put y.1 y.2) fs x = some d := by
  induction l generalizing fs with
  | nil => cases h
  | cons y l ih =>
    rw [List.foldl_cons]
    by_cases hl : ∃ d', (x, d') ∈ l
    · obtain ⟨d', hd'⟩ := hl
      have := hf d' (by simp [hd'])
      subst this
      exact ih _ (fun d'' h'' => hf d'' (by simp [h''])) hd'
    · rw [foldl_put_old l _ x (fun d' hd' => hl ⟨d', hd'⟩)]
      rcases List.mem_cons.1 h with h | h
      · rw [← h]
        simp [Fs.put]
      · exact absurd ⟨d, h⟩ hl

end Verif.S3Backup
