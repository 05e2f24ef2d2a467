import Verif.SysCache.Proofs

/-!
# System caches: no entry is lost under the discipline
-/

namespace Verif.SysCache

/-- The tree has an entry of the key. -/
def HasKey (t : List Entry) (k : Nat) : Prop := ∃ x ∈ t, x.key = k

structure Keep (s : State) (g : Objects) : Prop where
  steady : ∀ k, g.Steady k → (∀ e ∈ s.tree, e.key = k → e.deleted = false) ∧
    ∀ b, ∀ e ∈ s.fast b, e.key = k → e.deleted = false ∧ HasKey s.tree k
  need : ∀ k ∈ g.need, k ∉ g.gone ∧ HasKey s.tree k
  drop : ∀ b k, (b, k) ∈ g.drops → k ∉ g.gone ∧ (∀ c, (c, k) ∈ g.drops → c = b) ∧
    (∀ c, ∀ e ∈ s.fast c, e.key = k → HasKey s.tree k ∧ (c ≠ b → e.deleted = false)) ∧
    (HasKey s.tree k → k ∈ s.undo b)
  undo : ∀ b k, k ∈ s.undo b → (b, k) ∈ g.drops

theorem keep_search {s : State} {g : Objects} {b k l : Nat} {s' : State} {r : Option Entry}
    (hk : Keep s g) (sp : Searched s b k l s' r) (ha : ∀ c, (c, k) ∈ g.drops → c = b) :
    Keep s' g := by
  have hin : ∀ c, ∀ e ∈ s'.fast c, e ∈ s.fast c ∨ (c = b ∧ e ∈ s.tree ∧ e.key = k) := by
    intro c e he
    by_cases hc : c = b
    · subst hc
      rcases sp.from_ e he with h | h
      · exact Or.inl h
      · exact Or.inr ⟨rfl, h⟩
    · rw [sp.other c hc] at he
      exact Or.inl he
  refine ⟨?_, ?_, ?_, ?_⟩
  · intro j hj
    obtain ⟨h1, h2⟩ := hk.steady j hj
    rw [sp.tree]
    refine ⟨h1, ?_⟩
    intro c e he hej
    rcases hin c e he with h | ⟨_, h, _⟩
    · exact h2 c e h hej
    · exact ⟨h1 e h hej, e, h, hej⟩
  · intro j hj
    rw [sp.tree]
    exact hk.need j hj
  · intro c j hcj
    obtain ⟨h1, h2, h3, h4⟩ := hk.drop c j hcj
    rw [sp.tree, sp.undo]
    refine ⟨h1, h2, ?_, h4⟩
    intro d e he hej
    rcases hin d e he with h | ⟨hd, h, hek⟩
    · exact h3 d e h hej
    · refine ⟨⟨e, h, hej⟩, ?_⟩
      intro hne
      exfalso
      apply hne
      have : j = k := by rw [← hej, hek]
      subst this
      rw [hd, ha c hcj]
  · intro c j hj
    rw [sp.undo] at hj
    exact hk.undo c j hj

theorem setCached_mem (s : State) (b : Nat) (e x : Entry) (c : Nat)
    (hx : x ∈ (setCached s b e).fast c) :
    x ∈ s.fast c ∧ (c = b → x.key ≠ e.key) ∨ (c = b ∧ x = e ∧ ∃ y ∈ s.fast b, y.key = e.key) := by
  simp only [setCached] at hx
  by_cases hc : c = b
  · subst hc
    rw [upd_same, List.mem_map] at hx
    obtain ⟨y, hy, hxy⟩ := hx
    split at hxy
    · rename_i h
      exact Or.inr ⟨rfl, hxy.symm, y, hy, h⟩
    · rename_i h
      subst hxy
      exact Or.inl ⟨hy, fun _ => h⟩
  · rw [upd_other _ _ _ _ hc] at hx
    exact Or.inl ⟨hx, fun h => absurd h hc⟩

theorem treeUpdate_has (e : Entry) (t : List Entry) (k : Nat) :
    HasKey (treeUpdate e t) k ↔ HasKey t k := by
  constructor
  · rintro ⟨x, hx, hk⟩
    rcases treeUpdate_mem e x t hx with h | h
    · subst h
      by_cases hex : ∃ y ∈ t, y.key = x.key
      · obtain ⟨y, hy, hyk⟩ := hex
        exact ⟨y, hy, by rw [hyk, hk]⟩
      · exfalso
        have hsame : ∀ t : List Entry, (∀ y ∈ t, y.key ≠ x.key) → treeUpdate x t = t := by
          intro t
          induction t with
          | nil => intro _; rfl
          | cons y ys ih =>
            intro hno
            unfold treeUpdate
            rw [if_neg (hno y (by simp)), ih (fun z hz => hno z (by simp [hz]))]
        have hno : ∀ y ∈ t, y.key ≠ x.key := fun y hy he => hex ⟨y, hy, he⟩
        rw [hsame t hno] at hx
        exact hno x hx rfl
    · exact ⟨x, h, hk⟩
  · rintro ⟨x, hx, hk⟩
    by_cases he : x.key = e.key
    · exact ⟨e, treeUpdate_new e x t hx he, by rw [← he, hk]⟩
    · exact ⟨x, treeUpdate_keep e x he t hx, hk⟩

/-- What setting the flag of an entry does. -/
structure Flagged (s : State) (b : Nat) (ks : List Nat) (d : Bool) (s' : State) : Prop where
  inv : Inv s'
  undo : s'.undo = s.undo
  has : ∀ j, HasKey s'.tree j ↔ HasKey s.tree j
  tree : ∀ e ∈ s'.tree, (e.key ∈ ks → e.deleted = d) ∧ (e.key ∉ ks → e ∈ s.tree)
  other : ∀ c, c ≠ b → s'.fast c = s.fast c
  own : ∀ e ∈ s'.fast b, (e.key ∈ ks → e.deleted = d) ∧ (e.key ∉ ks → e ∈ s.fast b) ∧
    (HasKey s.tree e.key ∨ ∃ x ∈ s.fast b, x.key = e.key)

theorem setDeleted_spec (h : Nat → Nat) (s : State) (b k : Nat) (d : Bool) (hi : Inv s) :
    ∃ s' r, setDeleted h s b k d = some (s', r) ∧ Flagged s b [k] d s' ∧
      (r = true ↔ HasKey s.tree k) := by
  obtain ⟨s1, r, hs, sp⟩ := search_spec h s b k s.lsn hi
  unfold setDeleted
  rw [hs]
  cases r with
  | none =>
    obtain ⟨rfl, hno, hin⟩ := sp.none_ rfl
    have habs : ∀ e ∈ s1.tree, e.key ≠ k := fun e he hk => inForce_none hin e he hk (hi.tl e he)
    refine ⟨s1, false, rfl, ⟨hi, rfl, fun _ => Iff.rfl, ?_, fun _ _ => rfl, ?_⟩, ?_⟩
    · intro e he
      exact ⟨fun hk => absurd (by simpa using hk) (habs e he), fun _ => he⟩
    · intro e he
      exact ⟨fun hk => absurd (by simpa using hk) (hno e he), fun _ => he, Or.inr ⟨e, he, rfl⟩⟩
    · constructor
      · intro h'; simp at h'
      · rintro ⟨x, hx, hxk⟩; exact absurd hxk (habs x hx)
  | some e =>
    obtain ⟨hek, hef⟩ := sp.res e rfl
    have hown : ∀ x ∈ s1.fast b, HasKey s.tree x.key ∨ ∃ y ∈ s.fast b, y.key = x.key := by
      intro x hx
      rcases sp.from_ x hx with h' | h'
      · exact Or.inr ⟨x, h', rfl⟩
      · exact Or.inl ⟨x, h'.1, rfl⟩
    refine ⟨_, _, rfl, ⟨inv_written s1 b { e with deleted := d } sp.inv (sp.inv.fl b e hef),
      sp.undo, ?_, ?_, ?_, ?_⟩, ?_⟩
    · intro j
      simp only [treeUpdate_has, sp.tree]
    · intro x hx
      simp only at hx
      refine ⟨?_, ?_⟩
      · intro hxk
        have hxk' : x.key = k := by simpa using hxk
        have := treeUpdate_key { e with deleted := d } x sp.inv.one hx (by simp [hxk', hek])
        rw [this]
      · intro hxk
        rcases treeUpdate_mem _ x _ hx with h' | h'
        · exfalso; apply hxk; rw [h']; simp [hek]
        · rw [← sp.tree]; exact h'
    · intro c hc
      simp only [setCached, upd_other _ _ _ _ hc]
      exact sp.other c hc
    · intro x hx
      rcases setCached_mem s1 b { e with deleted := d } x b hx with ⟨h1, h2⟩ | ⟨_, h1, _⟩
      · have hne : x.key ≠ k := by have := h2 rfl; simpa [hek] using this
        refine ⟨fun hk => absurd (by simpa using hk) hne, ?_, hown x h1⟩
        intro _
        rcases sp.from_ x h1 with h' | h'
        · exact h'
        · exact absurd h'.2 hne
      · subst h1
        refine ⟨fun _ => rfl, ?_, ?_⟩
        · intro hk; exfalso; apply hk; simp [hek]
        · have := hown e hef
          simpa using this
    · rw [sp.tree, List.any_eq_true]
      constructor
      · rintro ⟨x, hx, hxk⟩; exact ⟨x, hx, by simpa using hxk⟩
      · rintro ⟨x, hx, hxk⟩; exact ⟨x, hx, by simpa using hxk⟩

theorem undoAll_spec (h : Nat → Nat) (b : Nat) : ∀ (ks : List Nat) (s : State), Inv s →
    ∃ s', undoAll h b ks s = some s' ∧ Flagged s b ks false s'
  | [], s, hi => by
    refine ⟨s, rfl, hi, rfl, fun _ => Iff.rfl, ?_, fun _ _ => rfl, ?_⟩
    · intro e he; exact ⟨by simp, fun _ => he⟩
    · intro e he; exact ⟨by simp, fun _ => he, Or.inr ⟨e, he, rfl⟩⟩
  | k :: ks, s, hi => by
    obtain ⟨s1, r, h1, f1, _⟩ := setDeleted_spec h s b k false hi
    obtain ⟨s2, h2, f2⟩ := undoAll_spec h b ks s1 f1.inv
    refine ⟨s2, by rw [undoAll, h1]; exact h2, f2.inv, by rw [f2.undo, f1.undo], ?_, ?_, ?_, ?_⟩
    · intro j; rw [f2.has, f1.has]
    · intro e he
      obtain ⟨a1, a2⟩ := f2.tree e he
      refine ⟨?_, ?_⟩
      · intro hek
        by_cases hm : e.key ∈ ks
        · exact a1 hm
        · have hek' : e.key ∈ [k] := by
            rcases List.mem_cons.mp hek with h' | h'
            · simp [h']
            · exact absurd h' hm
          exact (f1.tree e (a2 hm)).1 hek'
      · intro hek
        have h3 : e.key ∉ ks := fun h' => hek (by simp [h'])
        have h4 : e.key ∉ [k] := fun h' => hek (by simp at h'; simp [h'])
        exact (f1.tree e (a2 h3)).2 h4
    · intro c hc; rw [f2.other c hc, f1.other c hc]
    · intro e he
      obtain ⟨a1, a2, a3⟩ := f2.own e he
      refine ⟨?_, ?_, ?_⟩
      · intro hek
        by_cases hm : e.key ∈ ks
        · exact a1 hm
        · have hek' : e.key ∈ [k] := by
            rcases List.mem_cons.mp hek with h' | h'
            · simp [h']
            · exact absurd h' hm
          exact (f1.own e (a2 hm)).1 hek'
      · intro hek
        have h3 : e.key ∉ ks := fun h' => hek (by simp [h'])
        have h4 : e.key ∉ [k] := fun h' => hek (by simp at h'; simp [h'])
        exact (f1.own e (a2 h3)).2.1 h4
      · rcases a3 with h' | ⟨x, hx, hxk⟩
        · exact Or.inl ((f1.has _).mp h')
        · rcases (f1.own x hx).2.2 with h' | ⟨y, hy, hyk⟩
          · exact Or.inl (hxk ▸ h')
          · exact Or.inr ⟨y, hy, by rw [hyk, hxk]⟩

theorem dropsOf_mem (g : Objects) (b k : Nat) : k ∈ g.dropsOf b ↔ (b, k) ∈ g.drops := by
  simp [Objects.dropsOf]

theorem keep_step (h : Nat → Nat) (s : State) (g : Objects) (o : Op) (s' : State) (hi : Inv s)
    (hk : Keep s g) (ha : g.Allows o) (hf : ∀ b k v l, o = .add b k v l → s.lsn ≤ l)
    (hs : step h s o = some s') : Keep s' (g.step o) := by
  cases o with
  | search b k l =>
    obtain ⟨s1, r, h1, sp⟩ := search_spec h s b k l hi
    simp only [step, h1, Option.map_some, Option.some.injEq] at hs
    subst hs
    exact keep_search hk sp ha
  | add b k v l =>
    have hl : min l s.lsn = s.lsn := by have := hf b k v l rfl; omega
    obtain ⟨s1, r, h1, sp⟩ := search_spec h s b k s.lsn hi
    have hst : g.Steady k := ha
    have k1 := keep_search hk sp (fun c hc => absurd hc (hst.2 c))
    have hd : ∀ p, p ∈ g.drops.filter (fun p => p.2 ≠ k) ↔ p ∈ g.drops := by
      intro p
      simp only [List.mem_filter, ne_eq, decide_not, Bool.not_eq_true', decide_eq_false_iff_not,
        and_iff_left_iff_imp]
      intro hp he
      exact hst.2 p.1 (by rw [← he]; exact hp)
    simp only [step, addIfNeeded, hl, h1] at hs
    cases r with
    | some e =>
      simp only [Option.some.injEq] at hs
      subst hs
      obtain ⟨hek, hef⟩ := sp.res e rfl
      refine ⟨?_, ?_, ?_, ?_⟩
      · intro j hj
        exact k1.steady j ⟨hj.1, fun c hc => hj.2 c ((hd _).mpr hc)⟩
      · intro j hj
        rcases List.mem_cons.mp hj with hj | hj
        · subst hj
          exact ⟨hst.1, ((k1.steady j hst).2 b e hef hek).2⟩
        · exact k1.need j hj
      · intro c j hcj
        obtain ⟨a1, a2, a3, a4⟩ := k1.drop c j ((hd _).mp hcj)
        exact ⟨a1, fun c' hc' => a2 c' ((hd _).mp hc'), a3, a4⟩
      · intro c j hj
        exact (hd _).mpr (k1.undo c j hj)
    | none =>
      simp only [Option.some.injEq] at hs
      subst hs
      have hhas : ∀ j, HasKey s1.tree j → HasKey (treeInsert ⟨k, s.lsn, false, v⟩ s1.tree) j := by
        rintro j ⟨x, hx, hxk⟩
        exact ⟨x, by rw [treeInsert_mem]; exact Or.inr hx, hxk⟩
      refine ⟨?_, ?_, ?_, ?_⟩
      · intro j hj
        obtain ⟨a1, a2⟩ := k1.steady j ⟨hj.1, fun c hc => hj.2 c ((hd _).mpr hc)⟩
        refine ⟨?_, ?_⟩
        · intro e he hej
          simp only [treeInsert_mem] at he
          rcases he with he | he
          · subst he; rfl
          · exact a1 e he hej
        · intro c e he hej
          obtain ⟨b1, b2⟩ := a2 c e he hej
          exact ⟨b1, hhas j b2⟩
      · intro j hj
        rcases List.mem_cons.mp hj with hj | hj
        · subst hj
          exact ⟨hst.1, _, by simp only [treeInsert_mem]; exact Or.inl rfl, rfl⟩
        · exact ⟨(k1.need j hj).1, hhas j (k1.need j hj).2⟩
      · intro c j hcj
        have hcj' := (hd _).mp hcj
        obtain ⟨a1, a2, a3, a4⟩ := k1.drop c j hcj'
        refine ⟨a1, fun c' hc' => a2 c' ((hd _).mp hc'), ?_, ?_⟩
        · intro d e he hej
          obtain ⟨b1, b2⟩ := a3 d e he hej
          exact ⟨hhas j b1, b2⟩
        · rintro ⟨x, hx, hxk⟩
          simp only [treeInsert_mem] at hx
          rcases hx with hx | hx
          · exfalso
            subst hx
            simp only at hxk
            subst hxk
            exact hst.2 c hcj'
          · exact a4 ⟨x, hx, hxk⟩
      · intro c j hj
        exact (hd _).mpr (k1.undo c j hj)
  | update b k v =>
    obtain ⟨s1, r, h1, sp⟩ := search_spec h s b k s.lsn hi
    have hst : g.Steady k := ha
    have k1 := keep_search hk sp (fun c hc => absurd hc (hst.2 c))
    simp only [step, updateIfNeeded, h1] at hs
    cases r with
    | none =>
      simp only [Option.some.injEq] at hs
      subst hs
      exact k1
    | some e =>
      simp only [Option.some.injEq] at hs
      subst hs
      obtain ⟨hek, hef⟩ := sp.res e rfl
      obtain ⟨hed, hkey⟩ := (k1.steady k hst).2 b e hef hek
      refine ⟨?_, ?_, ?_, ?_⟩
      · intro j hj
        obtain ⟨a1, a2⟩ := k1.steady j hj
        refine ⟨?_, ?_⟩
        · intro x hx hxj
          rcases treeUpdate_mem _ x _ hx with h' | h'
          · rw [h']; exact hed
          · exact a1 x h' hxj
        · intro c x hx hxj
          simp only [treeUpdate_has]
          rcases setCached_mem s1 b { e with val := v } x c hx with ⟨h2, _⟩ | ⟨_, h2, _⟩
          · exact a2 c x h2 hxj
          · refine ⟨by rw [h2]; exact hed, ?_⟩
            have : j = k := by rw [← hxj, h2]; exact hek
            subst this
            exact hkey
      · intro j hj
        simp only [treeUpdate_has]
        exact k1.need j hj
      · intro c j hcj
        obtain ⟨a1, a2, a3, a4⟩ := k1.drop c j hcj
        simp only [treeUpdate_has]
        refine ⟨a1, a2, ?_, a4⟩
        intro d x hx hxj
        rcases setCached_mem s1 b { e with val := v } x d hx with ⟨h2, _⟩ | ⟨_, h2, _⟩
        · exact a3 d x h2 hxj
        · exfalso
          have : j = k := by rw [← hxj, h2]; exact hek
          subst this
          exact hst.2 c hcj
      · intro c j hj
        exact k1.undo c j hj
  | delete b k =>
    have hst : g.Steady k := ha
    obtain ⟨s1, r, h1, f1, hr⟩ := setDeleted_spec h s b k true hi
    have hown : ∀ c, ∀ e ∈ s1.fast c, e.key ≠ k → e ∈ s.fast c := by
      intro c e he hne
      by_cases hc : c = b
      · subst hc; exact (f1.own e he).2.1 (by simpa using hne)
      · rw [f1.other c hc] at he; exact he
    have main : ∀ u : Nat → List Nat,
        (∀ c j, j ∈ u c ↔ j ∈ s.undo c ∨ (c = b ∧ j = k ∧ HasKey s.tree k)) →
        Keep { s1 with undo := u } (g.step (.delete b k)) := by
      intro u hu
      refine ⟨?_, ?_, ?_, ?_⟩
      · intro j hj
        have hne : j ≠ k := fun e => hj.2 b (by rw [e]; exact List.mem_cons_self)
        obtain ⟨a1, a2⟩ := hk.steady j ⟨hj.1, fun c hc => hj.2 c (List.mem_cons_of_mem _ hc)⟩
        refine ⟨?_, ?_⟩
        · intro e he hej
          exact a1 e ((f1.tree e he).2 (by simp [hej, hne])) hej
        · intro c e he hej
          simp only [f1.has]
          exact a2 c e (hown c e he (by rw [hej]; exact hne)) hej
      · intro j hj
        simp only [f1.has]
        exact hk.need j hj
      · intro c j hcj
        simp only [f1.has]
        rcases List.mem_cons.mp hcj with hcj | hcj
        · injection hcj with e1 e2
          subst e1; subst e2
          refine ⟨hst.1, ?_, ?_, ?_⟩
          · intro c' hc'
            rcases List.mem_cons.mp hc' with hc' | hc'
            · injection hc'
            · exact absurd hc' (hst.2 c')
          · intro d e he hej
            by_cases hd : d = c
            · subst hd
              refine ⟨?_, fun hne => absurd rfl hne⟩
              rcases (f1.own e he).2.2 with h' | ⟨x, hx, hxk⟩
              · rw [hej] at h'; exact h'
              · exact ((hk.steady j hst).2 d x hx (by rw [hxk, hej])).2
            · simp only [f1.other d hd] at he
              obtain ⟨b1, b2⟩ := (hk.steady j hst).2 d e he hej
              exact ⟨b2, fun _ => b1⟩
          · intro hh
            exact (hu _ _).mpr (Or.inr ⟨rfl, rfl, hh⟩)
        · have hne : j ≠ k := fun e => hst.2 c (by rw [← e]; exact hcj)
          obtain ⟨a1, a2, a3, a4⟩ := hk.drop c j hcj
          refine ⟨a1, ?_, ?_, ?_⟩
          · intro c' hc'
            rcases List.mem_cons.mp hc' with hc' | hc'
            · injection hc' with _ e2; exact absurd e2 hne
            · exact a2 c' hc'
          · intro d e he hej
            exact a3 d e (hown d e he (by rw [hej]; exact hne)) hej
          · intro hh; exact (hu _ _).mpr (Or.inl (a4 hh))
      · intro c j hj
        rcases (hu c j).mp hj with hj | ⟨e1, e2, _⟩
        · exact List.mem_cons_of_mem _ (hk.undo c j hj)
        · rw [e1, e2]; exact List.mem_cons_self
    simp only [step, delete, h1] at hs
    cases r with
    | true =>
      simp only [Option.some.injEq] at hs
      subst hs
      apply main
      intro c j
      by_cases hc : c = b
      · subst hc
        simp only [upd_same, f1.undo, List.mem_cons, true_and, hr.mp rfl, and_true]
        constructor <;> (intro hh; rcases hh with hh | hh <;> simp [hh])
      · simp only [upd_other _ _ _ _ hc, f1.undo, hc, false_and, or_false]
    | false =>
      simp only [Option.some.injEq] at hs
      subst hs
      have hno : ¬ HasKey s.tree k := fun hh => by have := hr.mpr hh; simp at this
      have := main s1.undo (by
        intro c j
        simp only [f1.undo, hno, and_false, or_false])
      exact this
  | commit b =>
    simp only [step, Option.some.injEq] at hs
    subst hs
    have hd : ∀ c j, (c, j) ∈ g.drops.filter (fun p => p.1 ≠ b) ↔ (c, j) ∈ g.drops ∧ c ≠ b := by
      intro c j; simp
    refine ⟨?_, ?_, ?_, ?_⟩
    · intro j hj
      simp only [Objects.step, Objects.Steady, List.mem_append, dropsOf_mem] at hj
      refine hk.steady j ⟨fun h' => hj.1 (Or.inr h'), ?_⟩
      intro c hc
      by_cases hcb : c = b
      · subst hcb; exact hj.1 (Or.inl hc)
      · exact hj.2 c ((hd c j).mpr ⟨hc, hcb⟩)
    · intro j hj
      simp only [Objects.step, List.mem_filter, decide_eq_true_eq, dropsOf_mem] at hj
      obtain ⟨a1, a2⟩ := hk.need j hj.1
      refine ⟨?_, a2⟩
      simp only [Objects.step, List.mem_append, dropsOf_mem]
      rintro (h' | h')
      · exact hj.2 h'
      · exact a1 h'
    · intro c j hcj
      simp only [Objects.step] at hcj
      obtain ⟨hcj, hcb⟩ := (hd c j).mp hcj
      obtain ⟨a1, a2, a3, a4⟩ := hk.drop c j hcj
      refine ⟨?_, ?_, a3, ?_⟩
      · simp only [Objects.step, List.mem_append, dropsOf_mem]
        rintro (h' | h')
        · exact hcb (a2 b h').symm
        · exact a1 h'
      · intro c' hc'
        simp only [Objects.step] at hc'
        exact a2 c' ((hd c' j).mp hc').1
      · intro hh
        simp only [upd_other _ _ _ _ hcb]
        exact a4 hh
    · intro c j hj
      by_cases hcb : c = b
      · subst hcb; simp only [upd_same, List.not_mem_nil] at hj
      · simp only [upd_other _ _ _ _ hcb] at hj
        simp only [Objects.step]
        exact (hd c j).mpr ⟨hk.undo c j hj, hcb⟩
  | abort b =>
    obtain ⟨s1, h1, f1⟩ := undoAll_spec h b (s.undo b) s hi
    simp only [step, h1, Option.map_some, Option.some.injEq] at hs
    subst hs
    have hd : ∀ c j, (c, j) ∈ g.drops.filter (fun p => p.1 ≠ b) ↔ (c, j) ∈ g.drops ∧ c ≠ b := by
      intro c j; simp
    have hown : ∀ c, ∀ e ∈ s1.fast c, e.key ∉ s.undo b → e ∈ s.fast c := by
      intro c e he hne
      by_cases hc : c = b
      · subst hc; exact (f1.own e he).2.1 hne
      · rw [f1.other c hc] at he; exact he
    refine ⟨?_, ?_, ?_, ?_⟩
    · intro j hj
      simp only [Objects.step, Objects.Steady] at hj
      by_cases hdr : (b, j) ∈ g.drops
      · obtain ⟨a1, a2, a3, a4⟩ := hk.drop b j hdr
        simp only [f1.has]
        refine ⟨?_, ?_⟩
        · intro e he hej
          have hh : HasKey s.tree j := (f1.has j).mp ⟨e, he, hej⟩
          exact (f1.tree e he).1 (by rw [hej]; exact a4 hh)
        · intro c e he hej
          by_cases hc : c = b
          · subst hc
            have hh : HasKey s.tree j := by
              rcases (f1.own e he).2.2 with h' | ⟨x, hx, hxk⟩
              · rw [hej] at h'; exact h'
              · exact (a3 c x hx (by rw [hxk, hej])).1
            exact ⟨(f1.own e he).1 (by rw [hej]; exact a4 hh), hh⟩
          · simp only [f1.other c hc] at he
            obtain ⟨b1, b2⟩ := a3 c e he hej
            exact ⟨b2 hc, b1⟩
      · have hst : g.Steady j := by
          refine ⟨hj.1, ?_⟩
          intro c hc
          by_cases hcb : c = b
          · subst hcb; exact hdr hc
          · exact hj.2 c ((hd c j).mpr ⟨hc, hcb⟩)
        have hnu : j ∉ s.undo b := fun h' => hdr (hk.undo b j h')
        obtain ⟨a1, a2⟩ := hk.steady j hst
        simp only [f1.has]
        refine ⟨?_, ?_⟩
        · intro e he hej
          exact a1 e ((f1.tree e he).2 (by rw [hej]; exact hnu)) hej
        · intro c e he hej
          exact a2 c e (hown c e he (by rw [hej]; exact hnu)) hej
    · intro j hj
      simp only [f1.has]
      exact hk.need j hj
    · intro c j hcj
      simp only [Objects.step] at hcj
      obtain ⟨hcj, hcb⟩ := (hd c j).mp hcj
      obtain ⟨a1, a2, a3, a4⟩ := hk.drop c j hcj
      have hnu : j ∉ s.undo b := fun h' => hcb (a2 b (hk.undo b j h')).symm
      simp only [f1.has]
      refine ⟨a1, ?_, ?_, ?_⟩
      · intro c' hc'
        simp only [Objects.step] at hc'
        exact a2 c' ((hd c' j).mp hc').1
      · intro d e he hej
        exact a3 d e (hown d e he (by rw [hej]; exact hnu)) hej
      · intro hh
        simp only [upd_other _ _ _ _ hcb, f1.undo]
        exact a4 hh
    · intro c j hj
      by_cases hcb : c = b
      · subst hcb; simp only [upd_same, List.not_mem_nil] at hj
      · simp only [upd_other _ _ _ _ hcb, f1.undo] at hj
        simp only [Objects.step]
        exact (hd c j).mpr ⟨hk.undo c j hj, hcb⟩
  | inval b hv =>
    simp only [step, Option.some.injEq] at hs
    subst hs
    have hsub : ∀ c, ∀ e ∈ (inval h s b hv).fast c, e ∈ s.fast c := by
      intro c e he
      unfold inval at he
      split at he
      · by_cases hc : c = b
        · subst hc
          simp only [upd_same, List.mem_filter] at he
          exact he.1
        · simp only [upd_other _ _ _ _ hc] at he
          exact he
      · exact he
    have ht : (inval h s b hv).tree = s.tree := by unfold inval; split <;> rfl
    have hu : (inval h s b hv).undo = s.undo := by unfold inval; split <;> rfl
    refine ⟨?_, ?_, ?_, ?_⟩
    · intro j hj
      rw [ht]
      obtain ⟨a1, a2⟩ := hk.steady j hj
      exact ⟨a1, fun c e he hej => a2 c e (hsub c e he) hej⟩
    · intro j hj; rw [ht]; exact hk.need j hj
    · intro c j hcj
      rw [ht, hu]
      obtain ⟨a1, a2, a3, a4⟩ := hk.drop c j hcj
      exact ⟨a1, a2, fun d e he hej => a3 d e (hsub d e he) hej, a4⟩
    · intro c j hj; rw [hu] at hj; exact hk.undo c j hj
  | checkpoint redo =>
    simp only [step, Option.some.injEq] at hs
    subst hs
    have hd : g.drops = [] := ha
    have hkeep : ∀ j, j ∉ g.gone → HasKey s.tree j →
        HasKey (deleteByLsn s (min redo s.lsn)).tree j := by
      rintro j hj ⟨x, hx, hxk⟩
      have hst : g.Steady j := ⟨hj, by simp [hd]⟩
      have := (hk.steady j hst).1 x hx hxk
      exact ⟨x, by simp [deleteByLsn, hx, this], hxk⟩
    refine ⟨?_, ?_, ?_, ?_⟩
    · intro j hj
      obtain ⟨a1, a2⟩ := hk.steady j hj
      refine ⟨?_, ?_⟩
      · intro e he hej
        simp only [deleteByLsn, List.mem_filter] at he
        exact a1 e he.1 hej
      · intro c e he hej
        obtain ⟨b1, b2⟩ := a2 c e he hej
        exact ⟨b1, hkeep j hj.1 b2⟩
    · intro j hj
      obtain ⟨a1, a2⟩ := hk.need j hj
      exact ⟨a1, hkeep j a1 a2⟩
    · intro c j hcj
      simp only [Objects.step, hd, List.not_mem_nil] at hcj
    · intro c j hj
      have := hk.undo c j hj
      simp only [hd, List.not_mem_nil] at this
  | tick n =>
    simp only [step, Option.some.injEq] at hs
    subst hs
    exact ⟨hk.steady, hk.need, hk.drop, hk.undo⟩

theorem keep_run (h : Nat → Nat) (total : Nat) : ∀ (ops : List Op) (s s' : State) (g : Objects),
    Inv s → Keep s g → s.lsn + ticks ops ≤ total → FreshLsn total ops → Disciplined g ops →
    run h s ops = some s' → Keep s' (objects g ops)
  | [], s, s', g, _, hk, _, _, _, hr => by
    simp only [run, Option.some.injEq] at hr
    subst hr
    exact hk
  | o :: os, s, s', g, hi, hk, ht, hf, hd, hr => by
    rw [ticks_cons] at ht
    have hfo : ∀ b k v l, o = .add b k v l → s.lsn ≤ l := by
      intro b k v l ho
      have := hf b k v l (by simp [ho])
      omega
    obtain ⟨s1, h1, i1, l1⟩ := inv_step h s o hi hfo
    rw [run, h1] at hr
    exact keep_run h total os s1 s' (g.step o) i1 (keep_step h s g o s1 hi hk hd.1 hfo h1)
      (by omega) (fun b k v l hm => hf b k v l (by simp [hm])) hd.2 hr

theorem keep_init : Keep init noObjects := by
  refine ⟨?_, ?_, ?_, ?_⟩
  · intro k _; simp [init]
  · simp [noObjects]
  · simp [noObjects]
  · simp [init]

end Verif.SysCache
