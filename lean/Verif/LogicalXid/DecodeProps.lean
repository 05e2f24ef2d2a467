import Verif.LogicalXid.Decode

/-!
# C46: logical decoding keeps what was not rolled back
-/

set_option linter.unusedSimpArgs false

namespace Verif.LogicalXid

/-- `BEGIN; INSERT 1; SAVEPOINT a; INSERT 2; RELEASE a; SAVEPOINT b; INSERT 3;
ROLLBACK TO b; COMMIT`. -/
def reuse : List Cmd :=
  [.change 1, .savepoint, .change 2, .release, .savepoint, .change 3, .rollback]

/-- The ids given to it: process 0 with the default map, its transaction at position 0. -/
def reuseOps : List Op := assign (131072 * 32) 1000000000 0 1 [] reuse

theorem reuse_ids : reuseOps =
    [.change 1, .savepoint 998244353, .change 2, .release, .savepoint 998244353, .change 3,
      .rollback] := by decide

/-- **C46 is violated**: releasing a savepoint hands its id back, the next savepoint of
the same transaction gets it again, and rolling that one back makes the decoder throw
away the changes of the released savepoint too. -/
theorem C46_violated : ¬ KeepsAll (logicalId (131072 * 32) 1000000000 0) reuseOps := by
  intro h
  have h0 : logicalId (131072 * 32) 1000000000 0 = 998244352 := by decide
  rw [h0] at h
  have hs : survivors reuseOps = [1, 2] := by decide
  have hq : ((Dec.start 998244352).run reuseOps).queue = [(998244352, 1)] := by decide
  obtain ⟨x, hx⟩ := h 2 (by rw [hs]; simp)
  rw [hq] at hx
  simp at hx

/-! ## With ids never used before -/

/-- Ids given to savepoints. -/
def given : List Op → List Nat
  | [] => []
  | .savepoint x :: l => x :: given l
  | _ :: l => given l

/-- `own y = f`: id `y` is the open (sub)transaction `f`, or was released into it. -/
structure DInv (s : Dec) (lv : List (List Nat)) (own : Nat → Nat) (used : List Nat) : Prop where
  len : lv.length = s.stack.length + 1
  frames : (s.ctx :: s.stack).Nodup
  ownF : ∀ f ∈ s.ctx :: s.stack, own f = f
  /-- a change of level `k` is queued under an id that belongs to frame `k` -/
  lev : ∀ (k : Nat) (l : List Nat) (f : Nat), lv[k]? = some l → (s.ctx :: s.stack)[k]? = some f →
    ∀ c ∈ l, ∃ x, (x, c) ∈ s.queue ∧ own x = f
  tag : ∀ x, s.tag = some x → own x = s.ctx
  subs : ∀ e ∈ s.subs, own e.2 = own e.1 ∨
    ∃ k : Nat, (s.ctx :: s.stack)[k]? = some e.2 ∧ (s.ctx :: s.stack)[k + 1]? = some e.1
  uF : ∀ f ∈ s.ctx :: s.stack, f ∈ used
  uT : ∀ x, s.tag = some x → x ∈ used
  uQ : ∀ e ∈ s.queue, e.1 ∈ used
  uS : ∀ e ∈ s.subs, e.1 ∈ used ∧ e.2 ∈ used

theorem nodup_index {l : List Nat} (h : l.Nodup) {i j x : Nat} (hi : l[i]? = some x)
    (hj : l[j]? = some x) : i = j := by
  have h1 : i < l.length := by
    rcases Nat.lt_or_ge i l.length with h | h
    · exact h
    · rw [List.getElem?_eq_none h] at hi; cases hi
  exact (List.getElem?_inj h1 h).mp (by rw [hi, hj])

theorem DInv.step {s : Dec} {lv : List (List Nat)} {own : Nat → Nat} {used : List Nat} (o : Op)
    (h : DInv s lv own used) (hf : ∀ x, o = .savepoint x → x ∉ used) :
    ∃ own', DInv (s.step o) (keep lv o) own' (given [o] ++ used) := by
  cases o with
  | change c =>
    refine ⟨own, ?_⟩
    have hcur : own s.cur = s.ctx := by
      unfold Dec.cur
      cases ht : s.tag with
      | none => exact h.ownF s.ctx List.mem_cons_self
      | some x => exact h.tag x ht
    have hcu : s.cur ∈ used := by
      unfold Dec.cur
      cases ht : s.tag with
      | none => exact h.uF s.ctx List.mem_cons_self
      | some x => exact h.uT x ht
    cases lv with
    | nil => have := h.len; simp at this
    | cons l ls =>
      refine ⟨h.len, h.frames, h.ownF, ?_, ?_, h.subs, h.uF, ?_, ?_, h.uS⟩
      · intro k l' f hk hff c' hc'
        cases k with
        | zero =>
          simp only [keep, List.getElem?_cons_zero, Option.some.injEq] at hk
          subst hk
          simp only [List.mem_append, List.mem_singleton] at hc'
          rcases hc' with hc' | rfl
          · obtain ⟨x, hx, e⟩ := h.lev 0 l f rfl hff c' hc'
            exact ⟨x, List.mem_append_left _ hx, e⟩
          · refine ⟨s.cur, List.mem_append_right _ List.mem_cons_self, ?_⟩
            rw [hcur]
            have : (s.ctx :: s.stack)[0]? = some f := hff
            simpa using this
        | succ k =>
          obtain ⟨x, hx, e⟩ := h.lev (k + 1) l' f hk hff c' hc'
          exact ⟨x, List.mem_append_left _ hx, e⟩
      · intro x hx
        simp only [Dec.step, Option.some.injEq] at hx
        subst hx; exact hcur
      · intro x hx
        simp only [Dec.step, Option.some.injEq] at hx
        subst hx; exact hcu
      · intro e he
        simp only [Dec.step, List.mem_append, List.mem_singleton] at he
        rcases he with he | rfl
        · exact h.uQ e he
        · exact hcu
  | savepoint x =>
    have hx := hf x rfl
    refine ⟨fun y => if y = x then x else own y, ?_⟩
    have hnf : ∀ f ∈ s.ctx :: s.stack, f ≠ x := fun f hff e => hx (e ▸ h.uF f hff)
    have hns : ∀ e ∈ s.subs, e.1 ≠ x ∧ e.2 ≠ x :=
      fun e he => ⟨fun q => hx (q ▸ (h.uS e he).1), fun q => hx (q ▸ (h.uS e he).2)⟩
    have hsub : (s.step (.savepoint x)).subs = s.subs ++ [(s.ctx, x)] := by
      simp only [Dec.step]
      rw [if_neg]
      simp only [List.contains_eq_mem, List.mem_map, decide_eq_true_eq, not_exists, not_and]
      intro e he q; exact (hns e he).2 q
    have hkeep : keep lv (.savepoint x) = [] :: lv := by
      cases lv with
      | nil => rfl
      | cons l ls => cases ls <;> rfl
    rw [hkeep]
    have hused : given [Op.savepoint x] ++ used = x :: used := rfl
    rw [hused]
    refine ⟨by simp [Dec.step, h.len], ?_, ?_, ?_, ?_, ?_, ?_, ?_, ?_, ?_⟩
    · show (x :: s.ctx :: s.stack).Nodup
      rw [List.nodup_cons]
      exact ⟨fun hm => hnf x hm rfl, h.frames⟩
    · show ∀ f ∈ x :: s.ctx :: s.stack, (if f = x then x else own f) = f
      intro f hff
      rw [List.mem_cons] at hff
      rcases hff with rfl | hff
      · simp
      · rw [if_neg (hnf f hff)]; exact h.ownF f hff
    · intro k l f hk hff c hc
      cases k with
      | zero =>
        simp only [List.getElem?_cons_zero, Option.some.injEq] at hk
        subst hk; simp at hc
      | succ k =>
        have hff' : (s.ctx :: s.stack)[k]? = some f := hff
        obtain ⟨y, hy, e⟩ := h.lev k l f hk hff' c hc
        refine ⟨y, hy, ?_⟩
        have hyx : y ≠ x := fun q => hx (q ▸ h.uQ (y, c) hy)
        show (if y = x then x else own y) = f
        rw [if_neg hyx]
        exact e
    · intro y hy
      simp only [Dec.step, Option.some.injEq] at hy
      subst hy
      show (if x = x then x else own x) = x
      simp
    · rw [hsub]
      show ∀ e ∈ s.subs ++ [(s.ctx, x)], _ ∨ ∃ k : Nat, (x :: s.ctx :: s.stack)[k]? = some e.2 ∧
        (x :: s.ctx :: s.stack)[k + 1]? = some e.1
      intro e he
      rw [List.mem_append, List.mem_singleton] at he
      rcases he with he | rfl
      · have hne := hns e he
        rcases h.subs e he with q | ⟨k, h1, h2⟩
        · left; rw [if_neg hne.2, if_neg hne.1]; exact q
        · right; exact ⟨k + 1, h1, h2⟩
      · right; exact ⟨0, rfl, rfl⟩
    · show ∀ f ∈ x :: s.ctx :: s.stack, _
      intro f hff
      rw [List.mem_cons] at hff
      rcases hff with rfl | hff
      · exact List.mem_cons_self
      · exact List.mem_cons_of_mem _ (h.uF f hff)
    · intro y hy
      simp only [Dec.step, Option.some.injEq] at hy
      subst hy; exact List.mem_cons_self
    · intro e he; exact List.mem_cons_of_mem _ (h.uQ e he)
    · rw [hsub]
      intro e he
      rw [List.mem_append, List.mem_singleton] at he
      rcases he with he | rfl
      · exact ⟨List.mem_cons_of_mem _ (h.uS e he).1, List.mem_cons_of_mem _ (h.uS e he).2⟩
      · exact ⟨List.mem_cons_of_mem _ (h.uF s.ctx List.mem_cons_self), List.mem_cons_self⟩
  | release =>
    show ∃ own', DInv (s.step .release) (keep lv .release) own' used
    cases hst : s.stack with
    | nil =>
      refine ⟨own, ?_⟩
      have e1 : s.step .release = s := by simp only [Dec.step, hst]
      have e2 : keep lv .release = lv := by
        have := h.len; rw [hst] at this
        match lv, this with
        | [l], _ => rfl
      rw [e1, e2]; exact h
    | cons y ys =>
      obtain ⟨l, m, ls, rfl⟩ : ∃ l m ls, lv = l :: m :: ls := by
        have := h.len; rw [hst] at this
        match lv, this with
        | l :: m :: ls, _ => exact ⟨l, m, ls, rfl⟩
      have e1 : s.step .release = { s with
                                    ctx := y
                                    stack := ys } := by simp only [Dec.step, hst]
      have hnd := h.frames
      rw [hst] at hnd
      have hne : ∀ f ∈ y :: ys, f ≠ s.ctx := by
        intro f hff e
        rw [List.nodup_cons] at hnd
        exact hnd.1 (e ▸ hff)
      have hoy : own y = y := h.ownF y (by rw [hst]; simp)
      rw [e1]
      refine ⟨fun z => if own z = s.ctx then y else own z, ?_⟩
      refine ⟨?_, ?_, ?_, ?_, ?_, ?_, ?_, h.uT, h.uQ, h.uS⟩
      · have := h.len; rw [hst] at this
        simp [keep] at this ⊢; omega
      · exact (List.nodup_cons.mp hnd).2
      · show ∀ f ∈ y :: ys, (if own f = s.ctx then y else own f) = f
        intro f hff
        have ho := h.ownF f (by rw [hst]; exact List.mem_cons_of_mem _ hff)
        rw [ho, if_neg (hne f hff)]
      · show ∀ (k : Nat) (l' : List Nat) (f : Nat), ((m ++ l) :: ls)[k]? = some l' →
            (y :: ys)[k]? = some f → ∀ c ∈ l', ∃ x, (x, c) ∈ s.queue ∧
              (if own x = s.ctx then y else own x) = f
        intro k l' f hk hff c hc
        cases k with
        | zero =>
          simp only [List.getElem?_cons_zero, Option.some.injEq] at hk hff
          subst hk; subst hff
          rw [List.mem_append] at hc
          rcases hc with hc | hc
          · obtain ⟨x, hx, e⟩ := h.lev 1 m y rfl (by rw [hst]; rfl) c hc
            refine ⟨x, hx, ?_⟩
            rw [e]; split <;> rfl
          · obtain ⟨x, hx, e⟩ := h.lev 0 l s.ctx rfl rfl c hc
            exact ⟨x, hx, by rw [if_pos e]⟩
        | succ k =>
          obtain ⟨x, hx, e⟩ := h.lev (k + 2) l' f hk (by rw [hst]; exact hff) c hc
          refine ⟨x, hx, ?_⟩
          rw [e, if_neg]
          exact hne f (List.mem_of_getElem? hff)
      · show ∀ x, s.tag = some x → (if own x = s.ctx then y else own x) = y
        intro x hx
        rw [if_pos (h.tag x hx)]
      · show ∀ e ∈ s.subs, (if own e.2 = s.ctx then y else own e.2) =
            (if own e.1 = s.ctx then y else own e.1) ∨ ∃ k : Nat, (y :: ys)[k]? = some e.2 ∧
              (y :: ys)[k + 1]? = some e.1
        intro e he
        rcases h.subs e he with q | ⟨k, h1, h2⟩
        · left; rw [q]
        · rw [hst] at h1 h2
          cases k with
          | zero =>
            left
            simp only [List.getElem?_cons_zero, List.getElem?_cons_succ, Option.some.injEq] at h1 h2
            rw [← h1, ← h2, h.ownF s.ctx List.mem_cons_self, hoy, if_pos rfl,
              if_neg (hne y List.mem_cons_self)]
          | succ k => right; exact ⟨k, h1, h2⟩
      · show ∀ f ∈ y :: ys, _
        intro f hff
        exact h.uF f (by rw [hst]; exact List.mem_cons_of_mem _ hff)
  | rollback =>
    show ∃ own', DInv (s.step .rollback) (keep lv .rollback) own' used
    cases hst : s.stack with
    | nil =>
      refine ⟨own, ?_⟩
      have e1 : s.step .rollback = s := by simp only [Dec.step, hst]
      have e2 : keep lv .rollback = lv := by
        have := h.len; rw [hst] at this
        match lv, this with
        | [l], _ => rfl
      rw [e1, e2]; exact h
    | cons y ys =>
      obtain ⟨l, m, ls, rfl⟩ : ∃ l m ls, lv = l :: m :: ls := by
        have := h.len; rw [hst] at this
        match lv, this with
        | l :: m :: ls, _ => exact ⟨l, m, ls, rfl⟩
      have hnd := h.frames
      rw [hst] at hnd
      have hne : ∀ f ∈ y :: ys, f ≠ s.ctx := by
        intro f hff e
        rw [List.nodup_cons] at hnd
        exact hnd.1 (e ▸ hff)
      have e1 : s.step .rollback =
          { ctx := y
            stack := ys
            tag := none
            queue := s.queue.filter (fun e => !(s.aborted s.ctx).contains e.1)
            subs := s.subs.filter (fun e => e.2 != s.ctx && e.1 != s.ctx) } := by
        simp only [Dec.step, hst]
      have habort : ∀ x, x ∈ s.aborted s.ctx → own x = s.ctx := by
        intro x hx
        unfold Dec.aborted at hx
        rw [List.mem_cons] at hx
        rcases hx with rfl | hx
        · exact h.ownF s.ctx List.mem_cons_self
        · rw [List.mem_map] at hx
          obtain ⟨e, he, rfl⟩ := hx
          rw [List.mem_filter] at he
          have he1 : e.1 = s.ctx := by simpa using he.2
          rcases h.subs e he.1 with q | ⟨k, h1, h2⟩
          · rw [q, he1]; exact h.ownF s.ctx List.mem_cons_self
          · -- the frame above the innermost one does not exist
            exfalso
            rw [he1] at h2
            have := nodup_index h.frames h2 (j := 0) rfl
            omega
      rw [e1]
      refine ⟨own, ?_, ?_, ?_, ?_, ?_, ?_, ?_, ?_, ?_, ?_⟩
      · have := h.len; rw [hst] at this
        simp [keep] at this ⊢; omega
      · exact (List.nodup_cons.mp hnd).2
      · intro f hff
        exact h.ownF f (by rw [hst]; exact List.mem_cons_of_mem _ hff)
      · show ∀ (k : Nat) (l' : List Nat) (f : Nat), (m :: ls)[k]? = some l' →
            (y :: ys)[k]? = some f → ∀ c ∈ l', ∃ x,
              (x, c) ∈ s.queue.filter (fun e => !(s.aborted s.ctx).contains e.1) ∧ own x = f
        intro k l' f hk hff c hc
        obtain ⟨x, hx, e⟩ := h.lev (k + 1) l' f hk (by rw [hst]; exact hff) c hc
        refine ⟨x, ?_, e⟩
        rw [List.mem_filter]
        refine ⟨hx, ?_⟩
        have : x ∉ s.aborted s.ctx := by
          intro hm
          have := habort x hm
          rw [e] at this
          exact hne f (List.mem_of_getElem? hff) this
        simp [this]
      · intro x hx; cases hx
      · show ∀ e ∈ s.subs.filter (fun e => e.2 != s.ctx && e.1 != s.ctx), _ ∨
          ∃ k : Nat, (y :: ys)[k]? = some e.2 ∧ (y :: ys)[k + 1]? = some e.1
        intro e he
        rw [List.mem_filter] at he
        have he2 : e.2 ≠ s.ctx := by
          have := he.2
          simp only [Bool.and_eq_true, bne_iff_ne] at this
          exact this.1
        rcases h.subs e he.1 with q | ⟨k, h1, h2⟩
        · exact Or.inl q
        · rw [hst] at h1 h2
          cases k with
          | zero =>
            simp only [List.getElem?_cons_zero, Option.some.injEq] at h1
            exact absurd h1.symm he2
          | succ k => exact Or.inr ⟨k, h1, h2⟩
      · intro f hff
        exact h.uF f (by rw [hst]; exact List.mem_cons_of_mem _ hff)
      · intro x hx; cases hx
      · intro e he; exact h.uQ e (List.mem_filter.mp he).1
      · intro e he; exact h.uS e (List.mem_filter.mp he).1
  | flush =>
    refine ⟨own, ?_⟩
    have e2 : keep lv .flush = lv := by
      match lv with
      | [] => rfl
      | [l] => rfl
      | l :: m :: ls => rfl
    rw [e2]
    exact ⟨h.len, h.frames, h.ownF, h.lev, (by intro x hx; cases hx), h.subs, h.uF,
      (by intro x hx; cases hx), h.uQ, h.uS⟩

theorem DInv.run : ∀ (ops : List Op) {s : Dec} {lv : List (List Nat)} {own : Nat → Nat}
    {used : List Nat}, DInv s lv own used → (given ops).Nodup → (∀ x ∈ given ops, x ∉ used) →
    ∃ own' used', DInv (s.run ops) (ops.foldl keep lv) own' used' := by
  intro ops
  induction ops with
  | nil => intro s lv own used h _ _; exact ⟨own, used, h⟩
  | cons o ops ih =>
    intro s lv own used h hnd hfr
    have hg : given (o :: ops) = given [o] ++ given ops := by cases o <;> rfl
    rw [hg] at hnd hfr
    rw [List.nodup_append] at hnd
    obtain ⟨own', h'⟩ := DInv.step o h (by
      intro x hx; subst hx
      exact hfr x (by simp [given]))
    rw [Dec.run, List.foldl_cons]
    refine ih h' hnd.2.1 ?_
    intro x hx hm
    rw [List.mem_append] at hm
    rcases hm with hm | hm
    · exact hnd.2.2 x hm x hx rfl
    · exact hfr x (List.mem_append_right _ hx) hm

/-- **C46** (partial): when no id is given twice within the transaction, the decoder has
every change that was not rolled back, for any nesting, releasing and rolling back of
savepoints and any places where the WAL buffer is flushed, although the changes made
after a released savepoint are attributed to that savepoint.  Missing: ids given twice
(`C46_violated`), which is what the allocator does. -/
theorem C46_partial {x0 : Nat} {ops : List Op} (h : (x0 :: given ops).Nodup) :
    KeepsAll x0 ops := by
  rw [List.nodup_cons] at h
  have h0 : DInv (Dec.start x0) [[]] (fun y => y) [x0] := by
    refine ⟨rfl, by simp [Dec.start], fun _ _ => rfl, ?_, ?_, ?_, ?_, ?_, ?_, ?_⟩
    · intro k l f hk hff c hc
      cases k with
      | zero => simp only [List.getElem?_cons_zero, Option.some.injEq] at hk; subst hk; simp at hc
      | succ k => simp at hk
    · intro x hx; simp [Dec.start] at hx
    · intro e he; simp [Dec.start] at he
    · intro f hf; simpa [Dec.start] using hf
    · intro x hx; simp [Dec.start] at hx
    · intro e he; simp [Dec.start] at he
    · intro e he; simp [Dec.start] at he
  obtain ⟨own', used', h1⟩ := h0.run ops h.2 (by
    intro x hx hm
    rw [List.mem_singleton] at hm
    exact h.1 (hm ▸ hx))
  intro c hc
  unfold survivors at hc
  rw [List.mem_flatten] at hc
  obtain ⟨l, hl, hcl⟩ := hc
  obtain ⟨k, hk, hkl⟩ := List.getElem_of_mem hl
  have hk' : (ops.foldl keep [[]])[k]? = some l := by rw [List.getElem?_eq_getElem hk, hkl]
  have hlen := h1.len
  have hfk : k < (((Dec.start x0).run ops).ctx :: ((Dec.start x0).run ops).stack).length := by
    simp only [List.length_cons]; omega
  obtain ⟨x, hx, _⟩ := h1.lev k l _ hk' (List.getElem?_eq_getElem hfk) c hcl
  exact ⟨x, hx⟩

-- a case that meets the hypothesis: nested savepoints, one released, one rolled back,
-- a change attributed to the released one
def sample : List Op :=
  [.change 1, .savepoint 11, .change 2, .savepoint 12, .change 3, .release, .change 4, .flush,
    .savepoint 13, .change 5, .rollback, .change 6, .release, .change 7]

example : (10 :: given sample).Nodup := by decide
example : survivors sample = [1, 2, 3, 4, 6, 7] := by decide
example : ((Dec.start 10).run sample).queue =
    [(10, 1), (11, 2), (12, 3), (12, 4), (11, 6), (11, 7)] := by decide

end Verif.LogicalXid
