import Verif.ArrayScan.Skip
import Verif.ArrayScan.RangeProofs

/-! # One skip array: proofs -/

namespace Verif.ArrayScan

/-- In the order of the scan; only for the proofs, not from the source. -/
def pre (fwd : Bool) (f : Field) (x y : Option Int) : Prop :=
  if fwd then ColLt f x y else ColLt f y x

/-- Behind a value in the order of the scan; only for the proofs, not from the source. -/
def behind (fwd : Bool) (f : Field) (v : Int) (x : Option Int) : Bool :=
  if fwd then after f v x else before f v x

/-- The transition state; only for the proofs, not from the source. -/
def trans (fwd : Bool) (v : Int) : Skip := if fwd then .next v else .prior v

theorem behind_iff (fwd : Bool) (f : Field) (v : Int) (x : Option Int) :
    behind fwd f v x = true ↔ pre fwd f (some v) x := by
  cases fwd <;> cases x <;> simp only [behind, pre, after, before, ColLt, Bool.false_eq_true,
    if_true, if_false] <;> cases f.nullfirst <;> cases f.asc <;> simp

theorem pre_asymm {fwd : Bool} {f : Field} {x y : Option Int} (h : pre fwd f x y) :
    ¬ pre fwd f y x := by
  cases fwd
  · exact colLt_asymm (f := f) h
  · exact colLt_asymm (f := f) h

theorem colLt_trans {f : Field} {x y z : Option Int} (h : ColLt f x y) (h' : ColLt f y z) :
    ColLt f x z := by
  cases x <;> cases y <;> cases z <;> simp only [ColLt] at h h' ⊢
  all_goals first
    | (cases hf : f.asc <;> simp only [hf, if_true, if_false, Bool.false_eq_true] at h h' ⊢ <;>
        omega)
    | assumption
    | (rw [h] at h'; cases h')

theorem pre_trans {fwd : Bool} {f : Field} {x y z : Option Int} (h : pre fwd f x y)
    (h' : pre fwd f y z) : pre fwd f x z := by
  cases fwd
  · exact colLt_trans (f := f) h' h
  · exact colLt_trans (f := f) h h'

theorem split_sorted {Q : Row → Row → Prop} {p : Row → Bool}
    (hQ : ∀ x y, Q x y → p x = false → p y = false) :
    ∀ l : List Row, l.Pairwise Q → l = l.filter p ++ l.filter (fun x => !p x)
  | [], _ => rfl
  | a :: l, h => by
    rw [List.pairwise_cons] at h
    have ih := split_sorted hQ l h.2
    cases hp : p a with
    | true =>
      rw [List.filter_cons_of_pos hp, List.filter_cons_of_neg (by simp [hp]), List.cons_append,
        ← ih]
    | false =>
      have hn : l.filter p = [] := by
        rw [List.filter_eq_nil_iff]
        intro b hb
        rw [hQ a b (h.1 b hb) hp]
        simp
      rw [List.filter_cons_of_neg (by simp [hp]), List.filter_cons_of_pos (by simp [hp]), hn]
      rw [hn] at ih
      simpa using ih

/-- The first column; only for the proofs, not from the source. -/
def col0 (r : Row) : Option Int := valueOf r 0

theorem inRange_one (f : Field) (k : Skip) (P : Row → Bool) (r : Row) (hr : r ≠ []) :
    inRange [f] [k] P r = (inFirst f k (col0 r) && P r) := by
  cases r with
  | nil => exact absurd rfl hr
  | cons x r => simp [inRange, inRests, col0, valueOf]

theorem rangeRows_one (f : Field) (k : Skip) (P : Row → Bool) (rows : List Row)
    (hr : ∀ r ∈ rows, r ≠ []) :
    rangeRows [f] [k] P rows = (rows.filter P).filter fun r => inFirst f k (col0 r) := by
  rw [rangeRows, List.filter_filter]
  exact List.filter_congr fun r h => inRange_one f k P r (hr r h)

theorem inFirst_trans (fwd : Bool) (f : Field) (v : Int) (x : Option Int) :
    inFirst f (trans fwd v) x = behind fwd f v x := by
  cases fwd <;> rfl

theorem observe_none (k : Skip) (r : Row) (h : col0 r = none) : observe [k] r = [k] := by
  cases r with
  | nil => rfl
  | cons x r =>
    simp only [col0, valueOf, List.getD_cons_zero] at h
    subst h
    rfl

theorem observe_some (k : Skip) (hk : k.open = true) (r : Row) (v : Int) (h : col0 r = some v) :
    observe [k] r = [.at v] := by
  cases r with
  | nil => simp [col0, valueOf] at h
  | cons x r =>
    simp only [col0, valueOf, List.getD_cons_zero] at h
    subst h
    simp [observe, hk]

theorem advance_open (fwd : Bool) (f : Field) (k : Skip) (hk : k.open = true) :
    ∃ ks', skipAdvance fwd [f] [k] = (ks', false) := by
  cases k <;> simp [Skip.open] at hk <;> exact ⟨_, rfl⟩

theorem advance_at (fwd : Bool) (f : Field) (v : Int) :
    skipAdvance fwd [f] [.at v] = ([trans fwd v], true) := by
  cases fwd <;> rfl

/-- What an open range and all that follows return, by its rows `m` of all rows `M` asked for. -/
theorem runs_open (fwd : Bool) (f : Field) (P : Row → Bool) (rows : List Row)
    (hr : ∀ r ∈ rows, r ≠ [])
    (hs : (rows.filter P).Pairwise fun r s => pre fwd f (col0 r) (col0 s) ∨ col0 r = col0 s) :
    ∀ (n : Nat) (k : Skip), k.open = true →
      (∀ w x, inFirst f k (some w) = true → pre fwd f (some w) x → inFirst f k x = true) →
      ((rows.filter P).filter fun r => inFirst f k (col0 r)).length = n →
      SkipRuns fwd [f] P rows [k] ((rows.filter P).filter fun r => inFirst f k (col0 r)) := by
  intro n
  induction n using Nat.strongRecOn with
  | _ n IH =>
    intro k hk hup hlen
    have hl := rangeRows_one f k P rows hr
    generalize hM : rows.filter P = M at hs hlen hl
    generalize hm : (M.filter fun r => inFirst f k (col0 r)) = m at hlen hl
    have hany : [k].any Skip.open = true := by simp [hk]
    cases m with
    | nil =>
      obtain ⟨ks', e⟩ := advance_open fwd f k hk
      have hsr : scanRange [f] [k] P rows = ([], [k]) := by
        simp only [scanRange, hany, hl, if_true]
      have := SkipRuns.stop (fwd := fwd) (fs := [f]) (P := P) (rows := rows) (ks := [k])
        (ks' := ks') (by rw [hsr]; exact e)
      rw [hsr] at this
      exact this
    | cons t m' =>
      have ht : t ∈ M ∧ inFirst f k (col0 t) = true := by
        have : t ∈ M.filter fun r => inFirst f k (col0 r) := by rw [hm]; simp
        simpa using this
      cases ht0 : col0 t with
      | none =>
        obtain ⟨ks', e⟩ := advance_open fwd f k hk
        have hsr : scanRange [f] [k] P rows = (t :: m', [k]) := by
          simp only [scanRange, hany, hl, if_true, observe_none k t ht0]
        have := SkipRuns.stop (fwd := fwd) (fs := [f]) (P := P) (rows := rows) (ks := [k])
          (ks' := ks') (by rw [hsr]; exact e)
        rw [hsr] at this
        exact this
      | some w =>
        rw [ht0] at ht
        have hne : [Skip.at w] ≠ [k] := by
          intro e
          simp only [List.cons.injEq, and_true] at e
          rw [← e] at hk
          cases hk
        have hsr : scanRange [f] [k] P rows =
            (M.filter fun r => inFirst f (.at w) (col0 r), [.at w]) := by
          have h2 := rangeRows_one f (.at w) P rows hr
          rw [hM] at h2
          simp only [scanRange, hany, hl, if_true, observe_some k hk t w ht0, hne, if_false, h2]
        have hps : (t :: m').Pairwise fun r s =>
            pre fwd f (col0 r) (col0 s) ∨ col0 r = col0 s := by
          rw [← hm]; exact hs.filter _
        have hge : ∀ x ∈ t :: m', col0 x = some w ∨ pre fwd f (some w) (col0 x) := by
          intro x hx
          rcases List.mem_cons.mp hx with e | e
          · subst e; exact Or.inl ht0
          · rcases (List.pairwise_cons.mp hps).1 x e with h | h
            · right; rw [ht0] at h; exact h
            · left; rw [ht0] at h; exact h.symm
        -- rows with the value `w`
        have e1 : (M.filter fun r => inFirst f (.at w) (col0 r)) =
            (t :: m').filter fun r => decide (col0 r = some w) := by
          rw [← hm, List.filter_filter]
          refine List.filter_congr fun x _ => ?_
          rw [show inFirst f (.at w) (col0 x) = decide (col0 x = some w) from rfl]
          by_cases hx : col0 x = some w
          · rw [hx, ht.2]; simp
          · simp [hx]
        -- rows behind it
        have e2 : (M.filter fun r => inFirst f (trans fwd w) (col0 r)) =
            (t :: m').filter fun r => !decide (col0 r = some w) := by
          have h3 : (M.filter fun r => inFirst f (trans fwd w) (col0 r)) =
              (t :: m').filter fun r => inFirst f (trans fwd w) (col0 r) := by
            rw [← hm, List.filter_filter]
            refine List.filter_congr fun x _ => ?_
            rw [inFirst_trans]
            cases hb : behind fwd f w (col0 x) with
            | false => simp
            | true => simp [hup w (col0 x) ht.2 ((behind_iff _ _ _ _).mp hb)]
          rw [h3]
          refine List.filter_congr fun x hx => ?_
          rw [inFirst_trans]
          rcases hge x hx with h | h
          · have : behind fwd f w (col0 x) = false := by
              apply Bool.eq_false_iff.mpr
              intro hb
              rw [behind_iff, h] at hb
              exact pre_asymm hb hb
            rw [this]; simp [h]
          · have hb := (behind_iff fwd f w (col0 x)).mpr h
            have : ¬ col0 x = some w := by
              intro e
              rw [e] at h
              exact pre_asymm h h
            rw [hb]; simp [this]
        have esplit := split_sorted (p := fun r => decide (col0 r = some w))
          (Q := fun r s => (col0 s = some w ∨ pre fwd f (some w) (col0 s)) ∧
            (col0 r = some w ∨ pre fwd f (some w) (col0 r)) ∧
            (pre fwd f (col0 r) (col0 s) ∨ col0 r = col0 s))
          (by
            rintro x y ⟨_, hx, hxy⟩ hpx
            simp only [decide_eq_false_iff_not] at hpx ⊢
            intro ey
            rcases hx with hx | hx
            · exact hpx hx
            · rcases hxy with h | h
              · rw [ey] at h; exact pre_asymm h hx
              · exact hpx (h.trans ey))
          (t :: m') (hps.imp_of_mem fun hx hy h => ⟨hge _ hy, hge _ hx, h⟩)
        have hlt : (M.filter fun r => inFirst f (trans fwd w) (col0 r)).length < n := by
          rw [e2, ← hlen, List.filter_cons_of_neg (by simp [ht0])]
          exact Nat.lt_of_le_of_lt (List.length_filter_le _ _) (by simp)
        have ih := IH _ hlt (trans fwd w) (by cases fwd <;> rfl)
          (by
            intro w' x h1 h2
            rw [inFirst_trans, behind_iff] at h1 ⊢
            exact pre_trans h1 h2)
          (by rw [hM])
        rw [hM] at ih
        have := SkipRuns.step (fwd := fwd) (fs := [f]) (P := P) (rows := rows) (ks := [k])
          (ks' := [trans fwd w]) (by rw [hsr]; exact advance_at fwd f w) ih
        rw [hsr] at this
        simp only [e1, e2] at this
        rw [esplit]
        exact this

theorem skipRuns_unique {fwd : Bool} {fs : List Field} {P : Row → Bool} {rows : List Row}
    {ks : List Skip} {l l' : List Row} (h : SkipRuns fwd fs P rows ks l)
    (h' : SkipRuns fwd fs P rows ks l') : l = l' := by
  induction h generalizing l' with
  | stop e =>
    cases h' with
    | stop _ => rfl
    | step e' _ => rw [e] at e'; cases e'
  | step e _ ih =>
    cases h' with
    | stop e' => rw [e] at e'; cases e'
    | step e' v =>
      rw [e] at e'
      cases e'
      rw [ih v]

theorem rowLt_col0 {f : Field} {fs : List Field} {r s : Row} (h : RowLt (f :: fs) r s) :
    ColLt f (col0 r) (col0 s) ∨ col0 r = col0 s := by
  cases r with
  | nil => simp [RowLt] at h
  | cons x r =>
    cases s with
    | nil => simp [RowLt] at h
    | cons y s =>
      simp only [RowLt] at h
      simp only [col0, valueOf, List.getD_cons_zero]
      rcases h with h | h
      · exact Or.inl h
      · exact Or.inr h.1

theorem start_open (fwd : Bool) (f : Field) : (Skip.start fwd f).open = true := by
  cases fwd <;> cases h : f.nullfirst <;> simp [Skip.start, Skip.open, h]

theorem start_all (fwd : Bool) (f : Field) (x : Option Int) :
    inFirst f (Skip.start fwd f) x = true := by
  cases fwd <;> cases h : f.nullfirst <;> simp [Skip.start, inFirst, h]

theorem skip_one (fwd : Bool) (f : Field) (fs : List Field) (P : Row → Bool)
    (rows out : List Row) (hrows : rows.Pairwise (RowLt (f :: fs))) (hr : ∀ r ∈ rows, r ≠ []) :
    SkipGives fwd [f] P rows out ↔ out = (if fwd then rows else rows.reverse).filter P := by
  have hD := (dir_pairwise fwd (f :: fs) rows hrows).filter P
  have hs : ((if fwd then rows else rows.reverse).filter P).Pairwise
      fun r s => pre fwd f (col0 r) (col0 s) ∨ col0 r = col0 s := by
    refine hD.imp ?_
    intro r s h
    cases fwd
    · rcases rowLt_col0 (show RowLt (f :: fs) s r from h) with h | h
      · exact Or.inl h
      · exact Or.inr h.symm
    · exact rowLt_col0 (show RowLt (f :: fs) r s from h)
  have h := runs_open fwd f P (if fwd then rows else rows.reverse)
    (fun r h => hr r ((mem_dir fwd rows r).mp h)) hs _ (Skip.start fwd f) (start_open fwd f)
    (fun _ x _ _ => start_all fwd f x) rfl
  rw [show (((if fwd then rows else rows.reverse).filter P).filter
      fun r => inFirst f (Skip.start fwd f) (col0 r)) =
      (if fwd then rows else rows.reverse).filter P from
    List.filter_eq_self.mpr fun r _ => start_all fwd f (col0 r)] at h
  constructor
  · intro h'
    exact skipRuns_unique h' h
  · intro e
    rw [e]
    exact h

theorem skipRun_gives {fwd : Bool} {fs : List Field} {P : Row → Bool} {rows : List Row} :
    ∀ {n : Nat} {ks : List Skip} {out : List Row}, skipRun fwd fs P rows n ks = some out →
      SkipRuns fwd fs P rows ks out
  | 0, _, _, h => by simp [skipRun] at h
  | n + 1, ks, out, h => by
    simp only [skipRun] at h
    rcases hA : skipAdvance fwd fs (scanRange fs ks P rows).2 with ⟨ks', b⟩
    rw [hA] at h
    cases b with
    | false =>
      simp only [Option.some.injEq] at h
      rw [← h]
      exact SkipRuns.stop hA
    | true =>
      simp only [Option.map_eq_some_iff] at h
      obtain ⟨o, ho, e⟩ := h
      rw [← e]
      exact SkipRuns.step hA (skipRun_gives ho)

end Verif.ArrayScan
