/-
The writes of rows keep the relation; whole histories.
-/
import Verif.Replay.Steps

namespace Verif.Replay

/-- The entries of one row are those the row calls for. -/
def RowOk (ixs : List Index) (st : RowSt) : Prop :=
  ∀ (i : Nat) ix, ixs[i]? = some ix → ∀ k, top (st (.sec i k)) = wanted ix (top (st .prim)) k

/-- Either there are no indexes, or the transaction has nothing of its own left in the row after a
rollback to `b`. -/
def Clear (ixs : List Index) (x b : Nat) (st : RowSt) : Prop :=
  ixs = [] ∨ cutS x 0 (cutS x b st) = cutS x b st

theorem cut_push {x n b : Nat} (h : b ≤ n) (v : Option (List Cell)) (c : Chain) :
    cut x b (⟨x, n, v⟩ :: c) = cut x b c := by
  unfold cut
  rw [List.dropWhile_cons_of_pos (by simp [h])]

theorem stamp_push {x n : Nat} {v : Option (List Cell)} {c : Chain} (h : ∀ v ∈ c, v.stamp < n) :
    ∀ w ∈ (⟨x, n, v⟩ :: c : Chain), w.stamp < n + 1 := by
  intro w hw
  rcases List.mem_cons.mp hw with rfl | hw
  · exact Nat.lt_succ_self _
  · exact Nat.lt_succ_of_lt (h w hw)

/-- A write made slot by slot: the primary gets a version, and every other slot is left alone, or gets
entries inserted or deleted. -/
theorem wrote_of {P : RowSt → Prop} {done : Nat → Bool} {x n b : Nat} {v : Option Row}
    {ixs : List Index} {st st' : RowSt} (hx : done x = false) (hb : b ≤ n) (hcl : Clear ixs x b st)
    (hp : st' .prim = ⟨x, n, v⟩ :: st .prim) (hP : P st')
    (hs : ∀ i k, st' (.sec i k) = st (.sec i k) ∨
      (ixs ≠ [] ∧ (st' (.sec i k) = delEntry x n (st (.sec i k)) ∨
        (∃ e, st' (.sec i k) = insEntry x n e (st (.sec i k)))))) :
    Wrote P done x n b v st st' := by
  have hcl' : ∀ i k, ixs ≠ [] → cut x 0 (cut x b (st (.sec i k))) = cut x b (st (.sec i k)) := by
    intro i k hne
    rcases hcl with h | h
    · exact absurd h hne
    · exact congrFun h (.sec i k)
  refine ⟨?_, hP, ?_, ?_, ?_, ?_⟩
  · rw [hp]; rfl
  · funext s
    unfold cutS
    cases s with
    | prim => rw [hp, cut_push hb]
    | sec i k =>
      rcases hs i k with h | ⟨hne, h | ⟨e, h⟩⟩
      · rw [h]
      · rw [h, cut_del hb (hcl' i k hne)]
      · rw [h, cut_ins hb e (hcl' i k hne)]
  · funext s
    unfold settledS
    cases s with
    | prim => rw [hp, settled_push hx]
    | sec i k =>
      rcases hs i k with h | ⟨hne, h | ⟨e, h⟩⟩
      · rw [h]
      · rw [h, settled_del hx]
      · rw [h, settled_ins hx]
  · intro s hg
    cases s with
    | prim => rw [hp]; exact hg.push hx n v
    | sec i k =>
      rcases hs i k with h | ⟨hne, h | ⟨e, h⟩⟩
      · rw [h]; exact hg
      · rw [h]; exact hg.del hx n
      · rw [h]; exact hg.ins hx n e
  · intro s hst
    cases s with
    | prim => rw [hp]; exact stamp_push hst
    | sec i k =>
      rcases hs i k with h | ⟨hne, h | ⟨e, h⟩⟩
      · rw [h]; intro w hw; exact Nat.lt_succ_of_lt (hst w hw)
      · rw [h]; exact stamp_del hst
      · rw [h]; exact stamp_ins hst

theorem ne_nil_of_get {ixs : List Index} {i : Nat} {ix : Index} (h : ixs[i]? = some ix) : ixs ≠ [] := by
  intro hc; rw [hc] at h; simp at h

theorem ins_slot (ixs : List Index) (x n : Nat) (r : Row) (st : RowSt) (i : Nat) (k : List Nat) :
    applyIns ixs x n r st (.sec i k) = st (.sec i k) ∨
      (ixs ≠ [] ∧ (applyIns ixs x n r st (.sec i k) = delEntry x n (st (.sec i k)) ∨
        (∃ e, applyIns ixs x n r st (.sec i k) = insEntry x n e (st (.sec i k))))) := by
  simp only [applyIns]
  cases h : ixs[i]? with
  | none => exact Or.inl rfl
  | some ix =>
    simp only
    split
    · exact Or.inr ⟨ne_nil_of_get h, Or.inr ⟨_, rfl⟩⟩
    · exact Or.inl rfl

theorem rowOk_ins {ixs : List Index} {x n : Nat} {r : Row} {st : RowSt} (h : RowOk ixs st)
    (ht : top (st .prim) = none) : RowOk ixs (applyIns ixs x n r st) := by
  intro i ix hi k
  have h1 := h i ix hi k
  rw [ht] at h1
  have h2 : top (applyIns ixs x n r st .prim) = some r := rfl
  rw [h2]
  simp only [applyIns, hi, wanted]
  by_cases hc : ix.pred r = true ∧ ix.key r = k
  · rw [if_pos (by simp [hc.1, hc.2]), if_pos hc, top_insEntry]
  · rw [if_neg (by simpa using hc), if_neg hc]
    exact h1

theorem rowOk_del {ixs : List Index} {x n : Nat} {old : Row} {st : RowSt} (h : RowOk ixs st)
    (ht : top (st .prim) = some old) : RowOk ixs (applyDel ixs x n st) := by
  intro i ix hi k
  have h1 := h i ix hi k
  rw [ht] at h1
  simp only [applyDel, ht, hi]
  have h2 : wanted ix (top (⟨x, n, none⟩ :: st .prim)) k = none := rfl
  rw [h2]
  by_cases hc : ix.pred old = true ∧ ix.key old = k
  · rw [if_pos (by simp [hc.1, hc.2]), top_delEntry]
  · rw [if_neg (by simpa using hc), h1]
    simp only [wanted]
    rw [if_neg hc]

theorem rowOk_upd {ixs : List Index} {x n : Nat} {old r : Row} {st : RowSt} (h : RowOk ixs st)
    (ht : top (st .prim) = some old)
    (hk : ∀ ix ∈ ixs, ix.key r = ix.key old →
      ix.pred r = ix.pred old ∧ (ix.pred r = true → ix.cells r = ix.cells old)) :
    RowOk ixs (applyUpd ixs x n r st) := by
  intro i ix hi k
  have h1 := h i ix hi k
  rw [ht] at h1
  simp only [applyUpd, ht, hi]
  have h2 : top (⟨x, n, some r⟩ :: st .prim) = some r := rfl
  rw [h2]
  simp only [wanted] at h1 ⊢
  unfold updEntry
  by_cases he : ix.key r = ix.key old
  · obtain ⟨hp, hc⟩ := hk ix (List.mem_of_getElem? hi) he
    rw [if_pos he, h1, he, ← hp]
    by_cases hq : ix.pred r = true ∧ ix.key old = k
    · rw [if_pos hq, if_pos hq, hc hq.1]
    · rw [if_neg hq, if_neg hq]
  · rw [if_neg he]
    by_cases hn : ix.pred r = true ∧ ix.key r = k
    · rw [if_pos hn]
      simp only [hn.1, hn.2, Bool.true_and, beq_self_eq_true, if_true]
      rw [top_insEntry]
    · rw [if_neg hn]
      simp only
      rw [if_neg (by simpa using hn)]
      by_cases ho : ix.pred old = true ∧ ix.key old = k
      · rw [if_pos (by simp [ho.1, ho.2]), top_delEntry]
      · rw [if_neg (by simpa using ho), h1, if_neg ho]

theorem upd_slot (ixs : List Index) (x n : Nat) (r old : Row) (st : RowSt)
    (ht : top (st .prim) = some old) (i : Nat) (k : List Nat) :
    applyUpd ixs x n r st (.sec i k) = st (.sec i k) ∨
      (ixs ≠ [] ∧ (applyUpd ixs x n r st (.sec i k) = delEntry x n (st (.sec i k)) ∨
        (∃ e, applyUpd ixs x n r st (.sec i k) = insEntry x n e (st (.sec i k))))) := by
  simp only [applyUpd, ht]
  cases h : ixs[i]? with
  | none => exact Or.inl rfl
  | some ix =>
    simp only [updEntry]
    by_cases he : ix.key r = ix.key old
    · rw [if_pos he]; exact Or.inl rfl
    · rw [if_neg he]
      by_cases hn : (ix.pred r && ix.key r == k) = true
      · rw [if_pos hn]
        have hold : ¬ (ix.pred old && ix.key old == k) = true := by
          simp at hn ⊢
          intro _ hc
          exact he (by rw [hn.2, hc])
        rw [if_neg hold]
        exact Or.inr ⟨ne_nil_of_get h, Or.inr ⟨_, rfl⟩⟩
      · rw [if_neg hn]
        by_cases ho : (ix.pred old && ix.key old == k) = true
        · rw [if_pos ho]; exact Or.inr ⟨ne_nil_of_get h, Or.inl rfl⟩
        · rw [if_neg ho]; exact Or.inl rfl

theorem del_slot (ixs : List Index) (x n : Nat) (old : Row) (st : RowSt)
    (ht : top (st .prim) = some old) (i : Nat) (k : List Nat) :
    applyDel ixs x n st (.sec i k) = st (.sec i k) ∨
      (ixs ≠ [] ∧ (applyDel ixs x n st (.sec i k) = delEntry x n (st (.sec i k)) ∨
        (∃ e, applyDel ixs x n st (.sec i k) = insEntry x n e (st (.sec i k))))) := by
  simp only [applyDel, ht]
  cases h : ixs[i]? with
  | none => exact Or.inl rfl
  | some ix =>
    simp only
    split
    · exact Or.inr ⟨ne_nil_of_get h, Or.inl rfl⟩
    · exact Or.inl rfl

/-- Nothing of the transaction is left in the row outside the innermost level if only that level has
written to it. -/
theorem clear_of {P : RowSt → Prop} {x pk : Nat} {ixs : List Index} {st : RowSt} {t : Tx}
    {os : List (Nat × Nat)} (h : Agree P x pk t.outer st t.subs os)
    (hf : ixs = [] ∨ ∀ f ∈ t.frames.tail, f pk = none) : Clear ixs x (inner os) st := by
  rcases hf with hf | hf
  · exact Or.inl hf
  · right
    unfold Tx.frames at hf
    cases hs : t.subs with
    | nil =>
      rw [hs] at h
      cases os with
      | nil => exact cutS_cutS (Nat.le_refl 0) st
      | cons o os => exact h.elim
    | cons q ss =>
      rw [hs] at h hf
      cases os with
      | nil => exact h.elim
      | cons o os =>
        obtain ⟨q, f⟩ := q
        obtain ⟨q', b⟩ := o
        obtain ⟨-, -, -, -, h5⟩ := h
        rw [List.map_cons, List.cons_append, List.tail_cons] at hf
        refine Agree.none _ _ _ h5 ?_ ?_
        · intro r hr
          exact hf _ (List.mem_append_left _ (List.mem_map_of_mem hr))
        · exact hf _ (List.mem_append_right _ List.mem_cons_self)

theorem mayWrite_iff {p : PSt} {x pk : Nat} (h : p.mayWrite x pk = true) :
    p.fin x = false ∧ (p.owner pk = none ∨ p.owner pk = some x) := by
  unfold PSt.mayWrite at h
  simp at h
  exact h

/-- Conditions at one step, for `P` = the entries are right; for no indexes nothing is asked. -/
def StepCond (ixs : List Index) (p : PSt) (e : Ev) : Prop :=
  ixs = [] ∨
  ((match e with
     | .ins x pk _ | .upd x pk _ | .del x pk => ∀ f ∈ (p.tx x).frames.tail, f pk = none
     | _ => True) ∧
   (match e with
     | .upd x pk r => ∀ ix ∈ ixs, ∀ old, p.look x pk = some old → ix.key r = ix.key old →
         ix.pred r = ix.pred old ∧ (ix.pred r = true → ix.cells r = ix.cells old)
     | _ => True))

theorem rowOk_nil (st : RowSt) : RowOk [] st := by
  intro i ix hi
  simp at hi

/-- A step of the primary, and the replay of its records. -/
theorem Inv.step {ixs : List Index} {p p' : PSt} {st : St} {m : Nat → List Bool} {e : Ev}
    {rs : List Rec} {es : List Ev} (h : Inv (RowOk ixs) p st m) (hs : pstep p e = some (p', rs))
    (hc : StepCond ixs p e) (hn : NoReleasedInside m (e :: es)) :
    ∃ m', Inv (RowOk ixs) p' (replay ixs st rs) m' ∧ NoReleasedInside m' es := by
  cases e with
  | ins x pk r =>
    simp only [pstep] at hs
    split at hs
    · next hg =>
      cases hs
      obtain ⟨hx, ho⟩ := mayWrite_iff hg.1
      refine ⟨m, ?_, hn⟩
      refine h.write hx ho (some r) (applyIns ixs x st.next r (st.rows pk)) ?_
      intro os hd ha
      refine wrote_of (ixs := ixs) (h.doneFin x hx) (inner_le hd) (clear_of ha (hc.imp id (·.1))) rfl ?_
        (ins_slot ixs x st.next r (st.rows pk))
      exact rowOk_ins (h.cur pk) (by rw [tops h hx ho]; exact hg.2)
    · cases hs
  | upd x pk r =>
    simp only [pstep] at hs
    split at hs
    · next hg =>
      cases hs
      obtain ⟨hx, ho⟩ := mayWrite_iff hg.1
      refine ⟨m, ?_, hn⟩
      obtain ⟨old, hold⟩ := Option.isSome_iff_exists.mp hg.2
      have ht := tops h hx ho
      rw [hold] at ht
      refine h.write hx ho (some r) (applyUpd ixs x st.next r (st.rows pk)) ?_
      intro os hd ha
      refine wrote_of (ixs := ixs) (h.doneFin x hx) (inner_le hd) (clear_of ha (hc.imp id (·.1))) ?_ ?_
        (upd_slot ixs x st.next r old (st.rows pk) ht)
      · simp only [applyUpd, ht]
      · rcases hc with hc | hc
        · rw [hc]; exact rowOk_nil _
        · exact rowOk_upd (h.cur pk) ht fun ix hix => hc.2 ix hix old hold
    · cases hs
  | del x pk =>
    simp only [pstep] at hs
    split at hs
    · next hg =>
      cases hs
      obtain ⟨hx, ho⟩ := mayWrite_iff hg.1
      refine ⟨m, ?_, hn⟩
      obtain ⟨old, hold⟩ := Option.isSome_iff_exists.mp hg.2
      have ht := tops h hx ho
      rw [hold] at ht
      refine h.write hx ho none (applyDel ixs x st.next (st.rows pk)) ?_
      intro os hd ha
      refine wrote_of (ixs := ixs) (h.doneFin x hx) (inner_le hd) (clear_of ha (hc.imp id (·.1))) ?_ ?_
        (del_slot ixs x st.next old (st.rows pk) ht)
      · simp only [applyDel, ht]
      · exact rowOk_del (h.cur pk) ht
    · cases hs
  | sub x =>
    simp only [pstep] at hs
    split at hs
    · cases hs
    · next hx =>
      cases hs
      exact ⟨_, h.sub (by simpa using hx), hn⟩
  | release x =>
    simp only [pstep] at hs
    split at hs
    · cases hs
    · next hx =>
      have hx : p.fin x = false := by simpa using hx
      split at hs
      · cases hs
      · next q f hsub =>
        cases hs
        refine ⟨_, h.release1 hx hsub _ ?_, hn⟩
        obtain ⟨os, -, h2, h3⟩ := h.lev x hx
        have h4 := h3 0
        rw [hsub] at h4
        match os, h2, h4 with
        | [_], h2, _ =>
          cases hm : m x with
          | nil => rfl
          | cons b bs =>
            rw [hm] at h2
            obtain ⟨ex, rest, -, -, h5⟩ := h2
            cases bs with
            | nil => rfl
            | cons b' bs => exact h5.elim
        | [], _, h4 => exact h4.elim
        | _ :: _ :: _, _, h4 => exact h4.2.2.2.2.elim
      · next q f q' g ss hsub =>
        cases hs
        refine ⟨_, h.release2 hx hsub _ ?_, hn⟩
        intro b b' bs' hm
        rw [hm]
  | rollback x =>
    simp only [pstep] at hs
    split at hs
    · cases hs
    · next hx =>
      have hx : p.fin x = false := by simpa using hx
      split at hs
      · cases hs
      · next q f ss hsub =>
        cases hs
        exact ⟨_, h.rollback hx hsub hn.1, hn.2⟩
  | commit x =>
    simp only [pstep] at hs
    split at hs
    · cases hs
    · next hx =>
      cases hs
      simp at hx
      exact ⟨m, h.commit hx.1, hn⟩
  | abort x =>
    simp only [pstep] at hs
    split at hs
    · cases hs
    · next hx =>
      cases hs
      exact ⟨m, h.abort (by simpa using hx), hn⟩

/-- The relation holds at the beginning. -/
theorem Inv.start (ixs : List Index) (base : Nat → Option Row) :
    Inv (RowOk ixs) (pinit base) (init ixs base) (fun _ => []) := by
  have hv : ∀ o s, ∀ v ∈ initRow ixs o s, v.xid = 0 ∧ v.stamp = 0 := by
    intro o s v hv
    cases o with
    | none => cases hv
    | some r =>
      cases s with
      | prim => simp [initRow] at hv; rw [hv]; exact ⟨rfl, rfl⟩
      | sec i k =>
        simp only [initRow] at hv
        split at hv
        · split at hv
          · simp at hv; rw [hv]; exact ⟨rfl, rfl⟩
          · cases hv
        · cases hv
  have hset : ∀ o s, settled (fun x => x == 0) (initRow ixs o s) = initRow ixs o s := by
    intro o s
    apply dropWhile_eq_self
    intro v hv'
    simp [(hv o s v hv').1]
  have hset' : ∀ o, settledS (fun x => x == 0) (initRow ixs o) = initRow ixs o := by
    intro o; funext s; exact hset o s
  have htop : ∀ o, top (initRow ixs o .prim) = o := by
    intro o
    cases o <;> rfl
  have hok : ∀ o, RowOk ixs (initRow ixs o) := by
    intro o i ix hi k
    rw [htop]
    cases o with
    | none => rfl
    | some r =>
      simp only [initRow, hi, wanted]
      by_cases hc : ix.pred r = true ∧ ix.key r = k
      · rw [if_pos (by simp [hc.1, hc.2]), if_pos hc]; rfl
      · rw [if_neg (by simpa using hc), if_neg hc]; rfl
  refine ⟨fun x hx => hx, ?_, ?_, fun pk => hok _, ?_, ?_, ?_, ?_⟩
  · intro pk s
    refine ⟨[], _, rfl, by simp, ?_⟩
    intro v hv'
    show (v.xid == 0) = true
    simp [(hv _ _ v hv').1]
  · intro pk s v hv'
    show v.stamp < 1
    rw [(hv _ _ v hv').2]
    exact Nat.one_pos
  · intro pk
    show RowOk ixs (settledS (fun x => x == 0) (initRow ixs (base pk))) ∧
      top (settled (fun x => x == 0) (initRow ixs (base pk) .prim)) = base pk
    rw [hset', hset, htop]
    exact ⟨hok _, rfl⟩
  · intro x _ pk hw
    exact absurd rfl hw
  · intro pk x hx
    cases hx
  · intro x hx
    refine ⟨[], trivial, trivial, ?_⟩
    intro pk
    refine ⟨fun _ => ?_, fun v hv' => by cases hv'⟩
    apply cutS_absent
    intro s v hv'
    rw [(hv _ _ v hv').1]
    intro hc
    subst hc
    cases hx

theorem replay_append (ixs : List Index) (st : St) (a b : List Rec) :
    replay ixs st (a ++ b) = replay ixs (replay ixs st a) b := by
  unfold replay
  rw [List.foldl_append]

/-- Conditions along a history. -/
def RunCond (ixs : List Index) : PSt → List Ev → Prop
  | _, [] => True
  | p, e :: es => StepCond ixs p e ∧
    (match pstep p e with
     | none => True
     | some (p', _) => RunCond ixs p' es)

theorem Inv.run {ixs : List Index} : ∀ {es : List Ev} {p p' : PSt} {st : St} {m : Nat → List Bool}
    {log : List Rec}, Inv (RowOk ixs) p st m → prun p es = some (p', log) → RunCond ixs p es →
    NoReleasedInside m es → ∃ m', Inv (RowOk ixs) p' (replay ixs st log) m'
  | [], p, p', st, m, log, h, hr, _, _ => by
    simp only [prun, Option.some.injEq, Prod.mk.injEq] at hr
    obtain ⟨rfl, rfl⟩ := hr
    exact ⟨m, h⟩
  | e :: es, p, p', st, m, log, h, hr, hc, hn => by
    simp only [prun] at hr
    split at hr
    · cases hr
    · next p1 rs hp =>
      split at hr
      · cases hr
      · next p2 rs' hr2 =>
        cases hr
        have hc2 := hc.2
        rw [hp] at hc2
        obtain ⟨m', h', hn'⟩ := h.step hp hc.1 hn
        rw [replay_append]
        exact Inv.run h' hr2 hc2 hn'

/-! ### The rows do not depend on the indexes -/

/-- Same rows, same savepoints. -/
def SameRows (a b : St) : Prop :=
  (∀ pk, a.rows pk .prim = b.rows pk .prim) ∧ a.sps = b.sps ∧ a.next = b.next ∧ a.done = b.done

theorem sameRows_step {i j : List Index} {a b : St} (h : SameRows a b) (r : Rec) :
    SameRows (rstep i a r) (rstep j b r) := by
  obtain ⟨h1, h2, h3, h4⟩ := h
  cases r with
  | ins x pk r =>
    refine ⟨?_, h2, congrArg (· + 1) h3, h4⟩
    intro pk'
    simp only [rstep, upd]
    split
    · simp only [applyIns, h1, h3]
    · exact h1 pk'
  | upd x pk r =>
    refine ⟨?_, h2, congrArg (· + 1) h3, h4⟩
    intro pk'
    simp only [rstep, upd]
    split
    · simp only [applyUpd, h1, h3]
      cases top (b.rows pk .prim) with
      | none => exact h1 pk
      | some old => rfl
    · exact h1 pk'
  | del x pk =>
    refine ⟨?_, h2, congrArg (· + 1) h3, h4⟩
    intro pk'
    simp only [rstep, upd]
    split
    · simp only [applyDel, h1, h3]
      cases top (b.rows pk .prim) with
      | none => exact h1 pk
      | some old => rfl
    · exact h1 pk'
  | savepoint x p =>
    refine ⟨h1, ?_, congrArg (· + 1) h3, h4⟩
    simp only [rstep, h2, h3]
  | rollbackTo x p =>
    refine ⟨?_, ?_, congrArg (· + 1) h3, h4⟩
    · intro pk
      simp only [rstep, h1, h2]
    · simp only [rstep, h2]
  | commit x =>
    refine ⟨h1, h2, congrArg (· + 1) h3, ?_⟩
    simp only [rstep, h4]
  | abort x =>
    refine ⟨?_, ?_, congrArg (· + 1) h3, h4⟩
    · intro pk
      simp only [rstep, h1]
    · simp only [rstep, h2]

theorem sameRows_replay {i j : List Index} : ∀ (log : List Rec) {a b : St}, SameRows a b →
    SameRows (replay i a log) (replay j b log)
  | [], _, _, h => h
  | r :: log, _, _, h => sameRows_replay log (sameRows_step h r)

theorem runCond_nil : ∀ (es : List Ev) (p : PSt), RunCond [] p es
  | [], _ => trivial
  | e :: es, p => by
    refine ⟨Or.inl rfl, ?_⟩
    split
    · trivial
    · exact runCond_nil es _

theorem runCond_of {ixs : List Index} : ∀ (es : List Ev) (p : PSt), NoWriteAcross p es →
    SameKeySameEntry ixs p es → RunCond ixs p es
  | [], _, _, _ => trivial
  | e :: es, p, h1, h2 => by
    refine ⟨Or.inr ⟨h1.1, h2.1⟩, ?_⟩
    have h3 := h1.2
    have h4 := h2.2
    split
    · trivial
    · next p' rs hp =>
      rw [hp] at h3 h4
      exact runCond_of es p' h3 h4

end Verif.Replay
