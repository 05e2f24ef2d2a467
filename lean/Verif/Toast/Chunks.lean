/-
The TOAST tree: chunks of a value are found again.
-/
import Verif.Toast.Model

namespace Verif.Toast

/-- The chunks of a value, numbered from `n` on. -/
def parts (m c a : Nat) : (fuel : Nat) → (n : Nat) → Bytes → Tree
  | 0, _, _ => []
  | fuel + 1, n, data =>
    if data.isEmpty then []
    else (⟨c, a, n⟩, data.take m) :: parts m c a fuel (n + 1) (data.drop m)

/-- The chunks of a whole value. -/
def allParts (cfg : Cfg) (key a : Nat) (data : Bytes) : Tree :=
  parts (cfg.chunk key) (cfg.cls key) a data.length 0 data

/-- The tree is in order, without two chunks of the same key. -/
def Sorted (t : Tree) : Prop := t.Pairwise fun x y => x.1.lt y.1 = true

theorem lt_iff (a b : CKey) : a.lt b = true ↔
    (a.cls < b.cls ∨ (a.cls = b.cls ∧ (a.att < b.att ∨ (a.att = b.att ∧ a.num < b.num)))) := by
  simp [CKey.lt]

theorem lt_trans {a b c : CKey} (h1 : a.lt b = true) (h2 : b.lt c = true) : a.lt c = true := by
  rw [lt_iff] at *; omega

theorem mem_put {k : CKey} {b : Bytes} {t : Tree} {e : CKey × Bytes} (h : e ∈ put k b t) :
    e = (k, b) ∨ e ∈ t := by
  induction t with
  | nil => simp [put] at h; exact Or.inl h
  | cons x t ih =>
    unfold put at h
    by_cases hk : k.lt x.1 = true
    · rw [if_pos hk] at h
      rcases List.mem_cons.mp h with h | h
      · exact Or.inl h
      · exact Or.inr h
    · rw [if_neg hk] at h
      rcases List.mem_cons.mp h with h | h
      · exact Or.inr (h ▸ List.mem_cons_self ..)
      · rcases ih h with h | h
        · exact Or.inl h
        · exact Or.inr (List.mem_cons_of_mem _ h)

theorem put_sorted {k : CKey} {b : Bytes} {t : Tree} (hs : Sorted t)
    (hk : ∀ e ∈ t, e.1 ≠ k) : Sorted (put k b t) := by
  induction t with
  | nil => simp [put, Sorted]
  | cons x t ih =>
    have hs' := List.pairwise_cons.mp hs
    unfold put
    by_cases hlt : k.lt x.1 = true
    · rw [if_pos hlt]
      refine List.pairwise_cons.mpr ⟨?_, hs⟩
      intro e he
      rcases List.mem_cons.mp he with he | he
      · subst he; exact hlt
      · exact lt_trans hlt (hs'.1 e he)
    · rw [if_neg hlt]
      refine List.pairwise_cons.mpr ⟨?_, ih hs'.2 fun e he => hk e (List.mem_cons_of_mem _ he)⟩
      intro e he
      rcases mem_put he with he | he
      · subst he
        have hne := hk x (List.mem_cons_self ..)
        have hne' : ¬ (x.1.cls = k.cls ∧ x.1.att = k.att ∧ x.1.num = k.num) := by
          intro ⟨h1, h2, h3⟩
          apply hne
          cases hx : x.1; cases k
          rw [hx] at h1 h2 h3
          simp at h1 h2 h3
          simp [h1, h2, h3]
        simp only [lt_iff] at *
        omega
      · exact hs'.1 e he

theorem sel_put_other {k : CKey} {b : Bytes} {c a : Nat} (h : ¬ (k.cls = c ∧ k.att = a))
    (t : Tree) : sel c a (put k b t) = sel c a t := by
  have hkf : ¬ ((k.cls == c && k.att == a) = true) := by simpa using h
  induction t with
  | nil => simp only [put, sel]; rw [List.filter_cons_of_neg (by simpa using hkf)]
  | cons x t ih =>
    unfold put
    by_cases hlt : k.lt x.1 = true
    · rw [if_pos hlt]
      unfold sel
      rw [List.filter_cons_of_neg (by simpa using hkf)]
    · rw [if_neg hlt]
      unfold sel at *
      rw [List.filter_cons, List.filter_cons, ih]

theorem sel_put_same {k : CKey} {b : Bytes} {t : Tree} (hs : Sorted t)
    (hn : ∀ e ∈ sel k.cls k.att t, e.1.num < k.num) :
    sel k.cls k.att (put k b t) = sel k.cls k.att t ++ [(k, b)] := by
  induction t with
  | nil => simp [put, sel]
  | cons x t ih =>
    have hs' := List.pairwise_cons.mp hs
    unfold put
    by_cases hlt : k.lt x.1 = true
    · rw [if_pos hlt]
      have hnil : sel k.cls k.att (x :: t) = [] := by
        unfold sel
        apply List.filter_eq_nil_iff.mpr
        intro e he hp
        have hmem : e ∈ sel k.cls k.att (x :: t) := List.mem_filter.mpr ⟨he, hp⟩
        have h1 := hn e hmem
        have h2 : k.lt e.1 = true := by
          rcases List.mem_cons.mp he with he | he
          · exact he ▸ hlt
          · exact lt_trans hlt (hs'.1 e he)
        simp at hp
        rw [lt_iff] at h2
        omega
      rw [hnil]
      have hnil' := hnil
      unfold sel at hnil' ⊢
      rw [List.filter_cons_of_pos (by simp), hnil']
      rfl
    · rw [if_neg hlt]
      have ih' := ih hs'.2 (by
        intro e he
        apply hn e
        have := List.mem_filter.mp he
        exact List.mem_filter.mpr ⟨List.mem_cons_of_mem _ this.1, this.2⟩)
      unfold sel at *
      rw [List.filter_cons, List.filter_cons, ih']
      by_cases hx : (x.1.cls == k.cls && x.1.att == k.att) = true
      · rw [if_pos hx, if_pos hx]; rfl
      · rw [if_neg hx, if_neg hx]

theorem insertGo_ok {m c a : Nat} (hm : 0 < m) : ∀ (fuel n : Nat) (data : Bytes) (t : Tree),
    data.length ≤ fuel → Sorted t → (∀ e ∈ sel c a t, e.1.num < n) →
    ∃ t', insertGo m c a fuel n data t = some t' ∧ Sorted t' ∧
      sel c a t' = sel c a t ++ parts m c a fuel n data ∧
      ∀ c' a', ¬ (c = c' ∧ a = a') → sel c' a' t' = sel c' a' t := by
  intro fuel
  induction fuel with
  | zero =>
    intro n data t _ hs _
    exact ⟨t, rfl, hs, by simp [parts], fun _ _ _ => rfl⟩
  | succ fuel ih =>
    intro n data t hl hs hn
    unfold insertGo parts
    by_cases he : data.isEmpty = true
    · rw [if_pos he, if_pos he]
      exact ⟨t, rfl, hs, by simp, fun _ _ _ => rfl⟩
    · rw [if_neg he, if_neg he]
      have hno : ∀ e ∈ t, e.1 ≠ ⟨c, a, n⟩ := by
        intro e hm' heq
        have : e ∈ sel c a t := List.mem_filter.mpr ⟨hm', by simp [heq]⟩
        have := hn e this
        rw [heq] at this
        simp at this
      have hany : ¬ (t.any (fun e => e.1 == ⟨c, a, n⟩) = true) := by
        intro h
        obtain ⟨e, hm', hp⟩ := List.any_eq_true.mp h
        exact hno e hm' (by simpa using hp)
      rw [if_neg hany]
      have hne : data ≠ [] := by
        intro h; apply he; simp [h]
      have hpos : 0 < data.length := List.length_pos_iff.mpr hne
      have hsame := sel_put_same (k := ⟨c, a, n⟩) (b := data.take m) hs hn
      simp only at hsame
      obtain ⟨t', h1, h2, h3, h4⟩ := ih (n + 1) (data.drop m) (put ⟨c, a, n⟩ (data.take m) t)
        (by rw [List.length_drop]; omega) (put_sorted hs hno) (by
          intro e he'
          rw [hsame] at he'
          rcases List.mem_append.mp he' with h | h
          · have := hn e h; omega
          · simp at h; simp [h])
      refine ⟨t', h1, h2, ?_, ?_⟩
      · rw [h3, hsame]; simp
      · intro c' a' hne'
        rw [h4 c' a' hne']
        exact sel_put_other (k := ⟨c, a, n⟩) hne' t

/-- Inserting a value where there is none. -/
theorem toastInsert_ok {cfg : Cfg} {key a : Nat} {data : Bytes} {t : Tree}
    (hm : 0 < cfg.chunk key) (hs : Sorted t) (hn : sel (cfg.cls key) a t = []) :
    ∃ t', toastInsert cfg key a data t = some t' ∧ Sorted t' ∧
      sel (cfg.cls key) a t' = allParts cfg key a data ∧
      ∀ c' a', ¬ (cfg.cls key = c' ∧ a = a') → sel c' a' t' = sel c' a' t := by
  obtain ⟨t', h1, h2, h3, h4⟩ := insertGo_ok (c := cfg.cls key) (a := a) hm data.length 0 data t
    (Nat.le_refl _) hs (by rw [hn]; simp)
  refine ⟨t', h1, h2, ?_, h4⟩
  rw [h3, hn]; rfl

/-- Removing a value that is there. -/
theorem toastDelete_ok {cfg : Cfg} {key a : Nat} {t : Tree}
    (hs : Sorted t) (hn : sel (cfg.cls key) a t ≠ []) :
    ∃ t', toastDelete cfg key a t = some t' ∧ Sorted t' ∧
      sel (cfg.cls key) a t' = [] ∧
      ∀ c' a', ¬ (cfg.cls key = c' ∧ a = a') → sel c' a' t' = sel c' a' t := by
  unfold toastDelete
  rw [if_neg (by simpa using hn)]
  refine ⟨_, rfl, List.Pairwise.filter _ hs, ?_, ?_⟩
  · unfold sel
    rw [List.filter_filter]
    apply List.filter_eq_nil_iff.mpr
    intro e _ hp
    simp at hp
    omega
  · intro c' a' hne
    unfold sel
    rw [List.filter_filter]
    apply List.filter_congr
    intro e _
    by_cases h : e.1.cls = c' ∧ e.1.att = a'
    · obtain ⟨h1, h2⟩ := h
      have : ¬ (c' = cfg.cls key ∧ a' = a) := fun h => hne ⟨h.1.symm, h.2.symm⟩
      simp only [h1, h2, beq_self_eq_true, Bool.and_self, Bool.true_and]
      simp only [Bool.not_eq_true', Bool.and_eq_false_iff, beq_eq_false_iff_ne]
      omega
    · have : (e.1.cls == c' && e.1.att == a') = false := by
        rw [Bool.eq_false_iff]; simpa using h
      rw [this]; simp

theorem getGo_parts {m c a : Nat} (hm : 0 < m) : ∀ (fuel n : Nat) (data acc : Bytes),
    data.length ≤ fuel →
    getGo m (acc.length + data.length) ((parts m c a fuel n data).map (·.2)) acc
      = some (acc ++ data) := by
  intro fuel
  induction fuel with
  | zero =>
    intro n data acc hl
    have : data = [] := List.length_eq_zero_iff.mp (by omega)
    subst this
    simp [parts, getGo]
  | succ fuel ih =>
    intro n data acc hl
    unfold parts
    by_cases he : data.isEmpty = true
    · rw [if_pos he]
      have : data = [] := by simpa using he
      subst this
      simp [getGo]
    · rw [if_neg he]
      have hpos : 0 < data.length := List.length_pos_iff.mpr (by simpa using he)
      rw [List.map_cons, getGo]
      have hlen : (data.take m).length = min m data.length := List.length_take
      rw [if_neg (by rw [hlen]; omega)]
      by_cases hlt : (data.take m).length < m
      · rw [if_pos hlt]
        have : data.take m = data := List.take_of_length_le (by rw [hlen] at hlt; omega)
        rw [this, if_pos (by simp)]
      · rw [if_neg hlt]
        have := ih (n + 1) (data.drop m) (acc ++ data.take m) (by rw [List.length_drop]; omega)
        rw [List.append_assoc, List.take_append_drop] at this
        rw [← this]
        congr 1
        rw [List.length_append, List.length_drop, hlen]
        rw [hlen] at hlt
        omega

theorem ofImage_image (f : Flat) : ofImage f.image = f := by
  cases f with
  | mk c b => cases c <;> simp [ofImage, Flat.image]

theorem image_pos (f : Flat) : f.image ≠ [] := by simp [Flat.image]

theorem image_length (f : Flat) : f.image.length = f.bytes.length + 4 := by
  simp [Flat.image]

/-- A value is read as it was stored. -/
theorem detoast_ok {cfg : Cfg} {t : Tree} {key a r : Nat} {f : Flat} (hm : 0 < cfg.chunk key)
    (h : sel (cfg.cls key) a t = allParts cfg key a f.image) :
    detoast cfg t ⟨key, a, r, f.image.length⟩ = some f := by
  unfold detoast
  simp only
  rw [h]
  have := getGo_parts (c := cfg.cls key) (a := a) hm f.image.length 0 f.image [] (Nat.le_refl _)
  simp only [List.length_nil, Nat.zero_add, List.nil_append] at this
  unfold allParts
  rw [this]
  simp [ofImage_image]

theorem allParts_ne {cfg : Cfg} {key a : Nat} {f : Flat} :
    allParts cfg key a f.image ≠ [] := by
  unfold allParts
  rw [image_length]
  unfold parts
  simp [Flat.image]

end Verif.Toast
