import Verif.SysCache.Spec

/-!
# System caches: one version of a key, and what a search gives
-/

namespace Verif.SysCache

/-- At most one version of each key. -/
def One (tree : List Entry) : Prop := ∀ k, (tree.filter (fun e => e.key = k)).length ≤ 1

structure Inv (s : State) : Prop where
  one : One s.tree
  tl : ∀ e ∈ s.tree, e.lsn ≤ s.lsn
  fl : ∀ b, ∀ e ∈ s.fast b, e.lsn ≤ s.lsn
  lf : ∀ b e, s.last b = some e → e ∈ s.fast b

theorem upd_same {α : Type} (f : Nat → α) (b : Nat) (v : α) : upd f b v b = v := by simp [upd]

theorem upd_other {α : Type} (f : Nat → α) (b c : Nat) (v : α) (h : c ≠ b) : upd f b v c = f c := by
  simp [upd, h]

theorem one_eq {t : List Entry} (h : One t) {a b : Entry} (ha : a ∈ t) (hb : b ∈ t)
    (hk : a.key = b.key) : a = b := by
  have h1 := h b.key
  have ma : a ∈ t.filter (fun e => e.key = b.key) := by simp [ha, hk]
  have mb : b ∈ t.filter (fun e => e.key = b.key) := by simp [hb]
  generalize t.filter (fun e => e.key = b.key) = f at h1 ma mb
  match f, h1, ma, mb with
  | [], _, ma, _ => simp at ma
  | [x], _, ma, mb =>
    rw [List.mem_singleton] at ma mb
    rw [ma, mb]
  | _ :: _ :: _, h1, _, _ => simp at h1

theorem fromTree_one {t : List Entry} (h : One t) (k l : Nat) :
    fromTree t k l = (match inForce t k l with | none => .none | some e => .ent e) := by
  have h1 := h k
  have hi : t.filter (fun e => e.key = k ∧ e.lsn ≤ l) =
      (t.filter (fun e => e.key = k)).filter (fun e => e.lsn ≤ l) := by
    rw [List.filter_filter]
    congr 1
    funext e
    simp [Bool.and_comm]
  unfold fromTree inForce
  rw [hi]
  generalize t.filter (fun e => e.key = k) = f at h1
  match f, h1 with
  | [], _ => simp [treeLoop]
  | [x], _ =>
    by_cases hx : x.lsn > l
    · simp [treeLoop, hx]
    · have : x.lsn ≤ l := by omega
      simp [treeLoop, hx, this]
  | _ :: _ :: _, h1 => simp at h1

theorem inForce_mem {t : List Entry} {k l : Nat} {e : Entry} (h : inForce t k l = some e) :
    e ∈ t ∧ e.key = k ∧ e.lsn ≤ l := by
  have := List.mem_of_getLast? h
  simpa using this

theorem inForce_none {t : List Entry} {k l : Nat} (h : inForce t k l = none) :
    ∀ e ∈ t, e.key = k → ¬ e.lsn ≤ l := by
  intro e he hk hl
  unfold inForce at h
  rw [List.getLast?_eq_none_iff] at h
  have : e ∈ t.filter (fun e => e.key = k ∧ e.lsn ≤ l) := by simp [he, hk, hl]
  rw [h] at this
  simp at this

/-- What a search does. -/
structure Searched (s : State) (b k l : Nat) (s' : State) (r : Option Entry) : Prop where
  tree : s'.tree = s.tree
  undo : s'.undo = s.undo
  lsn : s'.lsn = s.lsn
  other : ∀ c, c ≠ b → s'.fast c = s.fast c
  from_ : ∀ e ∈ s'.fast b, e ∈ s.fast b ∨ (e ∈ s.tree ∧ e.key = k)
  res : ∀ e, r = some e → e.key = k ∧ e ∈ s'.fast b
  none_ : r = none → s' = s ∧ (∀ e ∈ s.fast b, e.key ≠ k) ∧ inForce s.tree k l = none
  cold : (∀ e ∈ s.fast b, e.key ≠ k) → r = inForce s.tree k l
  inv : Inv s'

theorem search_spec (h : Nat → Nat) (s : State) (b k l : Nat) (hi : Inv s) :
    ∃ s' r, search h s b k l = some (s', r) ∧ Searched s b k l s' r := by
  unfold search
  split
  · rename_i e he
    rw [Option.filter_eq_some_iff] at he
    obtain ⟨h1, h2⟩ := he
    simp at h2
    have hm := hi.lf b e h1
    refine ⟨s, some e, rfl, rfl, rfl, rfl, fun _ _ => rfl, fun _ h => Or.inl h, ?_, ?_, ?_, hi⟩
    · intro e' h'; injection h' with h'; subst h'; exact ⟨h2.2, hm⟩
    · intro h'; simp at h'
    · intro h'; exact absurd h2.2 (h' e hm)
  · split
    · rename_i e he
      have hm := List.mem_of_find?_eq_some he
      have hk := List.find?_some he
      simp at hk
      refine ⟨_, some e, rfl, rfl, rfl, rfl, fun _ _ => rfl, fun _ h => Or.inl h, ?_, ?_, ?_, ?_⟩
      · intro e' h'; injection h' with h'; subst h'; exact ⟨hk.2, hm⟩
      · intro h'; simp at h'
      · intro h'; exact absurd hk.2 (h' e hm)
      · refine ⟨hi.one, hi.tl, hi.fl, ?_⟩
        intro c e' hc
        by_cases hcb : c = b
        · subst hcb
          simp only [upd_same] at hc
          injection hc with hc; subst hc; exact hm
        · simp only [upd_other _ _ _ _ hcb] at hc
          exact hi.lf c e' hc
    · rename_i hno
      have hnone : ∀ e ∈ s.fast b, e.key ≠ k := by
        intro e he hk
        rw [List.find?_eq_none] at hno
        have := hno e he
        simp [hk] at this
      rw [fromTree_one hi.one]
      rcases hf : inForce s.tree k l with _ | e
      · simp only
        refine ⟨s, none, rfl, rfl, rfl, rfl, fun _ _ => rfl, fun _ h => Or.inl h, ?_, ?_, ?_, hi⟩
        · intro e h'; simp at h'
        · intro _; exact ⟨rfl, hnone, hf⟩
        · intro _; exact hf.symm
      · simp only
        obtain ⟨hm, hk, hl⟩ := inForce_mem hf
        refine ⟨_, some e, rfl, rfl, rfl, rfl, ?_, ?_, ?_, ?_, ?_, ?_⟩
        · intro c hc; simp only [upd_other _ _ _ _ hc]
        · intro e' he'
          simp only [upd_same, List.mem_append, List.mem_singleton] at he'
          rcases he' with he' | he'
          · exact Or.inl he'
          · subst he'; exact Or.inr ⟨hm, hk⟩
        · intro e' h'; injection h' with h'; subst h'
          exact ⟨hk, by simp [upd_same]⟩
        · intro h'; simp at h'
        · intro _; exact hf.symm
        · refine ⟨hi.one, hi.tl, ?_, ?_⟩
          · intro c e' he'
            by_cases hcb : c = b
            · subst hcb
              simp only [upd_same, List.mem_append, List.mem_singleton] at he'
              rcases he' with he' | he'
              · exact hi.fl c e' he'
              · subst he'; exact hi.tl _ hm
            · simp only [upd_other _ _ _ _ hcb] at he'
              exact hi.fl c e' he'
          · intro c e' hc
            by_cases hcb : c = b
            · subst hcb
              simp only [upd_same] at hc ⊢
              injection hc with hc; subst hc; simp
            · simp only [upd_other _ _ _ _ hcb] at hc ⊢
              exact hi.lf c e' hc

theorem treeInsert_mem (e x : Entry) : ∀ t, x ∈ treeInsert e t ↔ x = e ∨ x ∈ t
  | [] => by simp [treeInsert]
  | y :: ys => by
    have ih := treeInsert_mem e x ys
    unfold treeInsert
    split
    · simp
    · simp only [List.mem_cons, ih]
      constructor <;> (intro hh; rcases hh with hh | hh | hh <;> simp [hh])

theorem treeInsert_filter (e : Entry) (k : Nat) : ∀ t,
    ((treeInsert e t).filter (fun x => x.key = k)).length =
      (t.filter (fun x => x.key = k)).length + (if e.key = k then 1 else 0)
  | [] => by by_cases h : e.key = k <;> simp [treeInsert, h]
  | y :: ys => by
    have ih := treeInsert_filter e k ys
    unfold treeInsert
    split
    · by_cases h : e.key = k <;> by_cases h2 : y.key = k <;> simp [h, h2]
    · by_cases h2 : y.key = k
      · simp only [List.filter_cons, h2, decide_true, if_true, List.length_cons, ih]
        omega
      · simp only [List.filter_cons, h2, decide_false]
        simpa using ih

theorem treeUpdate_filter (e : Entry) (k : Nat) : ∀ t,
    ((treeUpdate e t).filter (fun x => x.key = k)).length =
      (t.filter (fun x => x.key = k)).length
  | [] => by simp [treeUpdate]
  | y :: ys => by
    have ih := treeUpdate_filter e k ys
    unfold treeUpdate
    split
    · rename_i h
      by_cases h2 : y.key = k
      · have : e.key = k := by rw [← h, h2]
        simp [h2, this]
      · have : ¬ e.key = k := by rw [← h]; exact h2
        simp [h2, this]
    · by_cases h2 : y.key = k
      · simp only [List.filter_cons, h2, decide_true, if_true, List.length_cons, ih]
      · simp only [List.filter_cons, h2, decide_false]
        simpa using ih

theorem treeUpdate_mem (e x : Entry) : ∀ t, x ∈ treeUpdate e t → x = e ∨ x ∈ t
  | [] => by simp [treeUpdate]
  | y :: ys => by
    have ih := treeUpdate_mem e x ys
    unfold treeUpdate
    split
    · intro hx
      rcases List.mem_cons.mp hx with hx | hx
      · exact Or.inl hx
      · exact Or.inr (by simp [hx])
    · intro hx
      rcases List.mem_cons.mp hx with hx | hx
      · exact Or.inr (by simp [hx])
      · rcases ih hx with h | h
        · exact Or.inl h
        · exact Or.inr (by simp [h])

theorem treeUpdate_keep (e x : Entry) (hk : x.key ≠ e.key) : ∀ t, x ∈ t → x ∈ treeUpdate e t
  | [] => by simp
  | y :: ys => by
    have ih := treeUpdate_keep e x hk ys
    unfold treeUpdate
    intro hx
    split
    · rename_i h
      rcases List.mem_cons.mp hx with hx | hx
      · subst hx; exact absurd h hk
      · simp [hx]
    · rcases List.mem_cons.mp hx with hx | hx
      · simp [hx]
      · simp [ih hx]

theorem treeUpdate_new (e x : Entry) : ∀ t, x ∈ t → x.key = e.key → e ∈ treeUpdate e t
  | [] => by simp
  | y :: ys => by
    have ih := treeUpdate_new e x ys
    unfold treeUpdate
    intro hx hk
    split
    · simp
    · rename_i h
      rcases List.mem_cons.mp hx with hx | hx
      · subst hx; exact absurd hk h
      · simp [ih hx hk]

theorem one_update {t : List Entry} (e : Entry) (h : One t) : One (treeUpdate e t) := by
  intro k; rw [treeUpdate_filter]; exact h k

/-- An update of the tree with one version leaves only the new one. -/
theorem treeUpdate_key {t : List Entry} (e x : Entry) (h : One t) (hx : x ∈ treeUpdate e t)
    (hk : x.key = e.key) : x = e := by
  have h1 := one_update e h
  by_cases hex : ∃ y ∈ t, y.key = e.key
  · obtain ⟨y, hy, hyk⟩ := hex
    exact one_eq h1 hx (treeUpdate_new e y t hy hyk) hk
  · rcases treeUpdate_mem e x t hx with h2 | h2
    · exact h2
    · exact absurd ⟨x, h2, hk⟩ hex

theorem inv_written (s : State) (b : Nat) (e : Entry) (hi : Inv s) (hl : e.lsn ≤ s.lsn) :
    Inv { setCached s b e with tree := treeUpdate e s.tree } := by
  refine ⟨one_update e hi.one, ?_, ?_, ?_⟩
  · intro x hx
    rcases treeUpdate_mem e x _ hx with h | h
    · subst h; exact hl
    · exact hi.tl x h
  · intro c x hx
    simp only [setCached] at hx
    by_cases hc : c = b
    · subst hc
      rw [upd_same, List.mem_map] at hx
      obtain ⟨y, hy, hxy⟩ := hx
      split at hxy
      · subst hxy; exact hl
      · subst hxy; exact hi.fl c y hy
    · rw [upd_other _ _ _ _ hc] at hx
      exact hi.fl c x hx
  · intro c x hx
    simp only [setCached] at hx ⊢
    by_cases hc : c = b
    · subst hc
      rw [upd_same] at hx ⊢
      rw [Option.map_eq_some_iff] at hx
      obtain ⟨y, hy, hxy⟩ := hx
      rw [List.mem_map]
      exact ⟨y, hi.lf c y hy, hxy⟩
    · rw [upd_other _ _ _ _ hc] at hx ⊢
      exact hi.lf c x hx

theorem setDeleted_inv (h : Nat → Nat) (s : State) (b k : Nat) (d : Bool) (hi : Inv s) :
    ∃ s' r, setDeleted h s b k d = some (s', r) ∧ Inv s' ∧ s'.lsn = s.lsn ∧ s'.undo = s.undo := by
  obtain ⟨s', r, hs, sp⟩ := search_spec h s b k s.lsn hi
  unfold setDeleted
  rw [hs]
  cases r with
  | none => exact ⟨s', false, rfl, sp.inv, sp.lsn, sp.undo⟩
  | some e =>
    refine ⟨_, _, rfl, inv_written s' b { e with deleted := d } sp.inv ?_, sp.lsn, sp.undo⟩
    exact sp.inv.fl b e (sp.res e rfl).2

theorem undoAll_inv (h : Nat → Nat) (b : Nat) : ∀ (ks : List Nat) (s : State), Inv s →
    ∃ s', undoAll h b ks s = some s' ∧ Inv s' ∧ s'.lsn = s.lsn ∧ s'.undo = s.undo
  | [], s, hi => ⟨s, rfl, hi, rfl, rfl⟩
  | k :: ks, s, hi => by
    obtain ⟨s1, r, h1, i1, l1, u1⟩ := setDeleted_inv h s b k false hi
    obtain ⟨s2, h2, i2, l2, u2⟩ := undoAll_inv h b ks s1 i1
    refine ⟨s2, ?_, i2, by rw [l2, l1], by rw [u2, u1]⟩
    rw [undoAll, h1]
    exact h2

theorem inv_inval (h : Nat → Nat) (s : State) (b hv : Nat) (hi : Inv s) : Inv (inval h s b hv) := by
  unfold inval
  split
  · refine ⟨hi.one, hi.tl, ?_, ?_⟩
    · intro c e he
      by_cases hc : c = b
      · subst hc
        simp only [upd_same, List.mem_filter] at he
        exact hi.fl c e he.1
      · simp only [upd_other _ _ _ _ hc] at he
        exact hi.fl c e he
    · intro c e he
      by_cases hc : c = b
      · subst hc
        simp only [upd_same] at he ⊢
        rw [Option.filter_eq_some_iff] at he
        rw [List.mem_filter]
        exact ⟨hi.lf c e he.1, he.2⟩
      · simp only [upd_other _ _ _ _ hc] at he ⊢
        exact hi.lf c e he
  · exact hi

/-- The WAL written by one operation. -/
def opTicks : Op → Nat
  | .tick n => n
  | _ => 0

theorem inv_step (h : Nat → Nat) (s : State) (o : Op) (hi : Inv s)
    (hf : ∀ b k v l, o = .add b k v l → s.lsn ≤ l) :
    ∃ s', step h s o = some s' ∧ Inv s' ∧
      s'.lsn = s.lsn + opTicks o := by
  cases o with
  | search b k l =>
    obtain ⟨s', r, hs, sp⟩ := search_spec h s b k l hi
    exact ⟨s', by simp [step, hs], sp.inv, sp.lsn⟩
  | add b k v l =>
    have hl : min l s.lsn = s.lsn := by have := hf b k v l rfl; omega
    obtain ⟨s', r, hs, sp⟩ := search_spec h s b k s.lsn hi
    simp only [step, addIfNeeded, hl, hs]
    cases r with
    | some e => exact ⟨s', rfl, sp.inv, sp.lsn⟩
    | none =>
      obtain ⟨rfl, hno, hin⟩ := sp.none_ rfl
      have habs : ∀ e ∈ s'.tree, e.key ≠ k := fun e he hk => inForce_none hin e he hk (hi.tl e he)
      refine ⟨_, rfl, ⟨?_, ?_, hi.fl, hi.lf⟩, rfl⟩
      · intro j
        rw [treeInsert_filter]
        by_cases hj : k = j
        · subst hj
          have : s'.tree.filter (fun x => x.key = k) = [] := by
            rw [List.filter_eq_nil_iff]
            intro x hx
            simpa using habs x hx
          simp [this]
        · simp only [hj, if_false]
          exact hi.one j
      · intro e he
        rw [treeInsert_mem] at he
        rcases he with he | he
        · subst he; exact Nat.le_refl _
        · exact hi.tl e he
  | update b k v =>
    obtain ⟨s', r, hs, sp⟩ := search_spec h s b k s.lsn hi
    simp only [step, updateIfNeeded, hs]
    cases r with
    | none => exact ⟨s', rfl, sp.inv, sp.lsn⟩
    | some e =>
      refine ⟨_, rfl, inv_written s' b { e with val := v } sp.inv ?_, sp.lsn⟩
      exact sp.inv.fl b e (sp.res e rfl).2
  | delete b k =>
    obtain ⟨s', r, h1, i1, l1, u1⟩ := setDeleted_inv h s b k true hi
    simp only [step, delete, h1]
    cases r with
    | false => exact ⟨s', rfl, i1, l1⟩
    | true => exact ⟨_, rfl, ⟨i1.one, i1.tl, i1.fl, i1.lf⟩, l1⟩
  | commit b => exact ⟨_, rfl, ⟨hi.one, hi.tl, hi.fl, hi.lf⟩, rfl⟩
  | abort b =>
    obtain ⟨s', h1, i1, l1, u1⟩ := undoAll_inv h b (s.undo b) s hi
    simp only [step, h1]
    exact ⟨_, rfl, ⟨i1.one, i1.tl, i1.fl, i1.lf⟩, l1⟩
  | inval b hv =>
    refine ⟨_, rfl, inv_inval h s b hv hi, ?_⟩
    unfold inval
    split <;> rfl
  | checkpoint redo =>
    refine ⟨_, rfl, ⟨?_, ?_, hi.fl, hi.lf⟩, rfl⟩
    · intro k
      refine Nat.le_trans ?_ (hi.one k)
      simp only [deleteByLsn]
      rw [List.filter_filter]
      rw [← List.countP_eq_length_filter, ← List.countP_eq_length_filter]
      apply List.countP_mono_left
      intro x _ hx
      simp at hx ⊢
      exact hx.1
    · intro e he
      simp only [deleteByLsn, List.mem_filter] at he
      exact hi.tl e he.1
  | tick n =>
    refine ⟨_, rfl, ⟨hi.one, ?_, ?_, hi.lf⟩, rfl⟩
    · intro e he
      have := hi.tl e he
      simp only
      omega
    · intro b e he
      have := hi.fl b e he
      simp only
      omega

theorem ticks_cons (o : Op) (os : List Op) :
    ticks (o :: os) = opTicks o + ticks os := by
  cases o <;> simp [ticks, opTicks]

theorem inv_run (h : Nat → Nat) (total : Nat) : ∀ (ops : List Op) (s : State), Inv s →
    s.lsn + ticks ops ≤ total → FreshLsn total ops → ∃ s', run h s ops = some s' ∧ Inv s'
  | [], s, hi, _, _ => ⟨s, rfl, hi⟩
  | o :: os, s, hi, ht, hf => by
    rw [ticks_cons] at ht
    obtain ⟨s1, h1, i1, l1⟩ := inv_step h s o hi (by
      intro b k v l ho
      have := hf b k v l (by simp [ho])
      omega)
    obtain ⟨s2, h2, i2⟩ := inv_run h total os s1 i1 (by omega)
      (fun b k v l hm => hf b k v l (by simp [hm]))
    exact ⟨s2, by rw [run, h1]; exact h2, i2⟩

theorem inv_init : Inv init := by
  refine ⟨?_, ?_, ?_, ?_⟩
  · intro k; simp [init]
  · simp [init]
  · simp [init]
  · simp [init]

theorem inval_cold (h : Nat → Nat) (s : State) (b k : Nat) :
    (∀ e ∈ (inval h s b (h k)).fast b, e.key ≠ k) ∧ (inval h s b (h k)).tree = s.tree := by
  unfold inval
  split
  · refine ⟨?_, rfl⟩
    intro e he hk
    simp only [upd_same, List.mem_filter] at he
    have := he.2
    simp [hk] at this
  · rename_i hno
    refine ⟨?_, rfl⟩
    intro e he hk
    apply hno
    rw [List.any_eq_true]
    exact ⟨e, he, by simp [hk]⟩

end Verif.SysCache
