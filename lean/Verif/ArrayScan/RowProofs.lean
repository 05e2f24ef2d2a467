import Verif.ArrayScan.Spec

/-! # Row comparisons: proofs -/

namespace Verif.ArrayScan

/-- The SQL operator of a lower or upper bound; only for the proofs, not from the source. -/
def opOf (lower incl asc : Bool) : RowOp :=
  if lower = asc then (if incl then .ge else .gt) else (if incl then .le else .lt)

theorem rowBounds_ne (lower incl isnull : Bool) (m : Member) (ms : List Member) :
    rowBounds lower incl isnull (m :: ms) ≠ [] := by
  cases ms <;> simp [rowBounds]

theorem valid_value (fs : List Field) (r : Row) (lower incl asc : Bool) :
    ∀ ms : List Member, ms ≠ [] → (∀ m ∈ ms, m.arg ≠ none) →
      (∀ m ∈ ms, (fieldOf fs m.col).asc = asc) →
      rowKeyValid fs lower r (rowBounds lower incl false ms) =
        some (sqlRow (opOf lower incl asc) (ms.map fun m => (valueOf r m.col, m.arg)))
  | [], h, _, _ => absurd rfl h
  | [m], _, ha, hf => by
    have ha := ha m (by simp)
    have hf := hf m (by simp)
    obtain ⟨a, ea⟩ := Option.ne_none_iff_exists'.mp ha
    simp only [rowBounds, rowKeyValid, cmpBound, ea, hf, List.map, sqlRow]
    cases hx : valueOf r m.col with
    | none => cases lower <;> cases (fieldOf fs m.col).nullfirst <;> simp [sqlRow]
    | some v =>
      by_cases e : v = a
      · subst e
        cases lower <;> cases incl <;> cases asc <;> simp [sqlRow, icmp, Bound.edge, opOf]
      · rcases Int.lt_or_gt_of_ne e with h | h
        · have h' : ¬ a < v := by omega
          cases lower <;> cases incl <;> cases asc <;> simp [sqlRow, icmp, Bound.edge, opOf, h, h', e]
        · have h' : ¬ v < a := by omega
          cases lower <;> cases incl <;> cases asc <;> simp [sqlRow, icmp, Bound.edge, opOf, h, h', e]
  | m :: m' :: ms, _, ha, hf => by
    have ih := valid_value fs r lower incl asc (m' :: ms) (by simp)
      (fun x hx => ha x (List.mem_cons_of_mem _ hx)) (fun x hx => hf x (List.mem_cons_of_mem _ hx))
    have ha := ha m (by simp)
    have hf := hf m (by simp)
    obtain ⟨a, ea⟩ := Option.ne_none_iff_exists'.mp ha
    have hne := rowBounds_ne lower incl false m' ms
    rw [show rowBounds lower incl false (m :: m' :: ms) =
      (m.col, ⟨lower, true, false, m.arg⟩) :: rowBounds lower incl false (m' :: ms) from rfl]
    generalize rowBounds lower incl false (m' :: ms) = bs at ih hne
    rw [List.map_cons]
    generalize (List.map (fun m => (valueOf r m.col, m.arg)) (m' :: ms)) = ps at ih ⊢
    simp only [rowKeyValid, cmpBound, ea, hf, sqlRow]
    cases hx : valueOf r m.col with
    | none => cases lower <;> cases (fieldOf fs m.col).nullfirst <;> simp [sqlRow]
    | some v =>
      by_cases e : v = a
      · subst e
        cases lower <;> cases asc <;> simpa [sqlRow, icmp] using ih
      · rcases Int.lt_or_gt_of_ne e with h | h
        · have h' : ¬ a < v := by omega
          cases lower <;> cases incl <;> cases asc <;> simp [sqlRow, icmp, Bound.edge, opOf, h, h', e, hne]
        · have h' : ¬ v < a := by omega
          cases lower <;> cases incl <;> cases asc <;> simp [sqlRow, icmp, Bound.edge, opOf, h, h', e, hne]

theorem head_some (fs : List Field) (r : Row) (low lower incl : Bool) (c : Nat)
    (arg : Option Int) (bs : List (Nat × Bound)) (b : Bool)
    (h : rowKeyValid fs low r bs = some b) :
    ∃ b, rowKeyValid fs low r ((c, ⟨lower, incl, true, arg⟩) :: bs) = some b := by
  have hc : ∃ z, cmpBound (fieldOf fs c) ⟨lower, incl, true, arg⟩ (valueOf r c) = some z := by
    cases hx : valueOf r c <;> simp [cmpBound]
  obtain ⟨z, hz⟩ := hc
  have e : ∃ p : Bool, rowKeyValid fs low r ((c, ⟨lower, incl, true, arg⟩) :: bs) =
      if p then some false else if z ≠ 0 ∧ bs ≠ [] then some true else rowKeyValid fs low r bs := by
    simp only [rowKeyValid, hz]
    exact ⟨_, rfl⟩
  obtain ⟨p, e⟩ := e
  rw [e]
  by_cases h1 : p = true
  · exact ⟨_, if_pos h1⟩
  · rw [if_neg h1]
    by_cases h2 : z ≠ 0 ∧ bs ≠ []
    · exact ⟨_, if_pos h2⟩
    · rw [if_neg h2]
      exact ⟨b, h⟩

theorem valid_null_some (fs : List Field) (r : Row) (lower incl : Bool) :
    ∀ ms : List Member, ∃ b, rowKeyValid fs lower r (rowBounds lower incl true ms) = some b
  | [] => ⟨true, rfl⟩
  | [_] => head_some fs r lower lower incl _ _ [] true rfl
  | _ :: m' :: ms => by
    obtain ⟨b, ih⟩ := valid_null_some fs r lower incl (m' :: ms)
    exact head_some fs r lower lower true _ _ _ b ih

theorem valid_null_true (fs : List Field) (r : Row) (lower : Bool) (m : Member)
    (ms : List Member) (hn : (fieldOf fs m.col).nullfirst = lower)
    (hv : valueOf r m.col ≠ none) :
    rowKeyValid fs lower r (rowBounds lower false true (m :: ms)) = some true := by
  obtain ⟨v, ev⟩ := Option.ne_none_iff_exists'.mp hv
  cases ms with
  | nil => cases lower <;> simp [rowBounds, rowKeyValid, cmpBound, ev, hn]
  | cons m' ms =>
    have hne := rowBounds_ne lower false true m' ms
    rw [show rowBounds lower false true (m :: m' :: ms) =
      (m.col, ⟨lower, true, true, m.arg⟩) :: rowBounds lower false true (m' :: ms) from rfl]
    generalize rowBounds lower false true (m' :: ms) = bs at hne
    cases lower <;> simp [rowKeyValid, cmpBound, ev, hn, hne]

theorem condValid_plain (fs : List Field) (r : Row) (c : RowCond) (h : c.Plain fs) :
    condValid fs r c =
      some (sqlRow c.op (c.members.map fun m => (valueOf r m.col, m.arg))) := by
  obtain ⟨op, ms⟩ := c
  obtain ⟨hne, ha, asc, hf⟩ := h
  cases ms with
  | nil => exact absurd rfl hne
  | cons m ms =>
    have hv := fun lower incl => valid_value fs r lower incl asc (m :: ms) hne ha hf
    have hfm := hf m (by simp)
    have hnl := valid_null_some fs r true false (m :: ms)
    have hnt := fun hn hv => valid_null_true fs r true m ms hn hv
    have hnf := fun hn hv => valid_null_true fs r false m ms hn hv
    have hnl' := valid_null_some fs r false false (m :: ms)
    have hz : valueOf r m.col = none →
        ∀ o, sqlRow o ((m :: ms).map fun m => (valueOf r m.col, m.arg)) = false := by
      intro h o
      simp [h, sqlRow]
    simp only [condValid, List.head?_cons, Option.map_some, Option.getD_some, hfm]
    generalize (m :: ms).map (fun m => (valueOf r m.col, m.arg)) = ps at *
    generalize m :: ms = l at *
    by_cases hx : valueOf r m.col = none
    · have hz := hz hx
      obtain ⟨b, eb⟩ := hnl
      obtain ⟨b', eb'⟩ := hnl'
      cases op <;> cases asc <;> cases hn : (fieldOf fs m.col).nullfirst <;>
        cases b <;> cases b' <;>
        simp [indexOp, lowOf, highOf, optValid, both, hv, hz, eb, eb']
    · cases op <;> cases asc <;> cases hn : (fieldOf fs m.col).nullfirst <;>
        simp [indexOp, lowOf, highOf, optValid, both, hv, opOf, hnt, hnf, hn, hx] <;>
        (first | rfl | (generalize sqlRow _ ps = q; cases q <;> rfl))

theorem condsValid_plain (fs : List Field) (r : Row) :
    ∀ cs : List RowCond, (∀ c ∈ cs, c.Plain fs) →
      ∃ b, condsValid fs r cs = some b ∧ (b = true ↔ ∀ c ∈ cs, c.Holds r)
  | [], _ => ⟨true, rfl, by simp⟩
  | c :: cs, h => by
    obtain ⟨b, e, hb⟩ := condsValid_plain fs r cs fun x hx => h x (List.mem_cons_of_mem _ hx)
    have hc := condValid_plain fs r c (h c (by simp))
    simp only [condsValid, hc]
    cases hq : sqlRow c.op (c.members.map fun m => (valueOf r m.col, m.arg)) with
    | false =>
      refine ⟨false, rfl, ?_⟩
      simp [RowCond.Holds, hq]
    | true =>
      refine ⟨b, e, ?_⟩
      simp only [List.mem_cons, forall_eq_or_imp, RowCond.Holds, hq, true_and]
      exact hb

end Verif.ArrayScan
