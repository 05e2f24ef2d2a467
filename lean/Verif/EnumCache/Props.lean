import Verif.EnumCache.Proofs

/-! # The order of enum values in recovery: the property -/

namespace Verif.EnumCache

/-- Rows that `pg_enum` can hold for a type: labels, OIDs and sort orders are unique, and even OIDs
are in order (`AddEnumLabel` of PostgreSQL takes an odd one otherwise). -/
def Catalog (cat : List Val) : Prop :=
  ∀ x ∈ cat, ∀ y ∈ cat, (x.label = y.label ∨ x.oid = y.oid ∨ x.order = y.order → x = y) ∧
    (x.oid % 2 = 0 → y.oid % 2 = 0 → x.oid < y.oid → x.order < y.order)

/-- What a comparison of two values of an enum type has to give: their order in `pg_enum`. -/
def right (x y : Val) : Ordering :=
  if x.order < y.order then .lt else if y.order < x.order then .gt else .eq

/-- **C142, in part**: the cache was filled from `pg_enum` at some LSNs, at the last of them with the
rows `cat`.  From then on, any two values of the type compare in recovery by their sort orders in
`cat`, whether by their OIDs, by the set of OIDs in order, or by their items.

Missing from the full statement: in between values were only added, with the sort orders of the others
kept and no label renamed, and recovery is not behind the last LSN.  Without the first it is false for
sort orders given anew (`C142_violated_renumber`) and labels used again (`C142_violated_label`),
without the last also for values there at that LSN (`C142_violated_lsn`). -/
theorem C142_partial (hist : List (Nat × List Val)) (l0 l : Nat) (cat : List Val)
    (hc : Catalog cat)
    (hh : (hist ++ [(l0, cat)]).Pairwise fun h h' => h.1 ≤ h'.1 ∧ ∀ r ∈ h.2, r ∈ h'.2)
    (hl : l0 ≤ l) (x y : Val) (hx : x ∈ cat) (hy : y ∈ cat) :
    enumCmp (load l (runs (hist ++ [(l0, cat)]))) x.oid y.oid = some (right x y) := by
  have hu : ∀ x ∈ cat, ∀ y ∈ cat, x.label = y.label → x = y :=
    fun x hx y hy h => (hc x hx y hy).1 (Or.inl h)
  rw [List.pairwise_append] at hh
  have hlast := fun h hm => hh.2.2 h hm (l0, cat) (by simp)
  have h0 : Of cat l0 (runs hist) :=
    of_runs hu hist 0 [] (by intro e he; simp at he)
      (fun h hm => ⟨Nat.zero_le _, (hlast h hm).2⟩) (hh.1.imp fun h => h.1) l0 (Nat.zero_le _)
      fun h hm => (hlast h hm).1
  have hr : runs (hist ++ [(l0, cat)]) = addAll l0 (runs hist) cat := by
    simp [runs, List.foldl_append]
  obtain ⟨h1, _, h3⟩ := of_addAll hu cat (runs hist) (fun _ h => h) h0
  rw [← hr] at h1 h3
  obtain ⟨a, ha, ex⟩ := h3 x hx
  obtain ⟨b, hb, ey⟩ := h3 y hy
  have := compare_load (lsn := l) (fun e he => Nat.le_trans (h1 e he).1 hl)
    (fun e he e' he' h => by
      have := (hc _ (h1 e he).2 _ (h1 e' he').2).1 (Or.inr (Or.inl h))
      simp only [Val.mk.injEq] at this
      exact this.2.2)
    (fun e he e' he' h => by
      have := (hc _ (h1 e he).2 _ (h1 e' he').2).1 (Or.inr (Or.inr h))
      simp only [Val.mk.injEq] at this
      exact this.2.1) ha hb
  have hmain : compare (load l (runs (hist ++ [(l0, cat)]))) x.oid y.oid = some (right x y) := by
    rw [ex, ey]
    exact this
  unfold enumCmp
  by_cases e : x.oid = y.oid
  · have := (hc x hx y hy).1 (Or.inr (Or.inl e))
    rw [if_pos e, this]
    simp [right]
  · rw [if_neg e]
    by_cases hev : x.oid % 2 = 0 ∧ y.oid % 2 = 0
    · rw [if_pos hev]
      unfold right
      by_cases hlt : x.oid < y.oid
      · rw [if_pos hlt, if_pos ((hc x hx y hy).2 hev.1 hev.2 hlt)]
      · have := (hc y hy x hx).2 hev.2 hev.1 (by omega)
        rw [if_neg hlt, if_neg (by omega), if_pos this]
    · rw [if_neg hev]
      exact hmain

/-- Three values, then a fourth before the first of them and one between the others. -/
theorem C142_partial_case :
    let hist : List (Nat × List Val) := [(10, [⟨5, 100, 4⟩, ⟨2, 102, 8⟩, ⟨7, 104, 12⟩])]
    let cat : List Val :=
      [⟨5, 100, 4⟩, ⟨2, 102, 8⟩, ⟨7, 104, 12⟩, ⟨3, 107, 1⟩, ⟨9, 109, 10⟩]
    Catalog cat ∧
      ((hist ++ [(50, cat)]).Pairwise fun (h h' : Nat × List Val) => h.1 ≤ h'.1 ∧ ∀ r ∈ h.2, r ∈ h'.2) ∧
      enumCmp (load 60 (runs (hist ++ [(50, cat)]))) 100 104 = some .lt ∧
      enumCmp (load 60 (runs (hist ++ [(50, cat)]))) 100 107 = some .gt ∧
      enumCmp (load 60 (runs (hist ++ [(50, cat)]))) 109 104 = some .lt := by
  refine ⟨?_, by simp, by decide +kernel, by decide +kernel, by decide +kernel⟩
  intro x hx y hy
  simp only [List.mem_cons, List.not_mem_nil, or_false] at hx hy
  rcases hx with h | h | h | h | h <;> rcases hy with h' | h' | h' | h' | h' <;>
    subst h <;> subst h' <;> simp

/-- **C142 fails** for sort orders given anew: the sort order of a value is read once, and when
`ALTER TYPE … ADD VALUE` gives new ones to all, those of the cache stay
(src/catalog/o_sys_cache.c:900-906).  The values 103 and 105 compare the wrong way around. -/
theorem C142_violated_renumber :
    ∃ (c1 c2 : List Val) (x y : Val), Catalog c1 ∧ Catalog c2 ∧
      (∀ r ∈ c1, ∃ r' ∈ c2, r'.label = r.label ∧ r'.oid = r.oid) ∧ x ∈ c2 ∧ y ∈ c2 ∧
      right x y = .gt ∧ enumCmp (load 60 (runs [(10, c1), (50, c2)])) x.oid y.oid = some .lt := by
  refine ⟨[⟨1, 100, 10⟩, ⟨2, 103, 11⟩], [⟨1, 100, 10⟩, ⟨2, 103, 20⟩, ⟨3, 105, 15⟩], ⟨2, 103, 20⟩,
    ⟨3, 105, 15⟩, ?_, ?_, by simp, by simp, by simp, by decide, by decide +kernel⟩
  · intro x hx y hy
    simp only [List.mem_cons, List.not_mem_nil, or_false] at hx hy
    rcases hx with h | h <;> rcases hy with h' | h' <;> subst h <;> subst h' <;> simp
  · intro x hx y hy
    simp only [List.mem_cons, List.not_mem_nil, or_false] at hx hy
    rcases hx with h | h | h <;> rcases hy with h' | h' | h' <;> subst h <;> subst h' <;> simp

/-- **C142 fails** for a label used again: label 1 is renamed to 3, then a value is added with the
label 1.  The entry of the renamed value is still there under the label, so the new value is not
entered, and comparisons with it end in an error (src/catalog/o_sys_cache.c:900-906). -/
theorem C142_violated_label :
    ∃ (c1 c2 c3 : List Val) (x y : Val), Catalog c1 ∧ Catalog c2 ∧ Catalog c3 ∧
      (∀ r ∈ c1, ∃ r' ∈ c2, r'.oid = r.oid ∧ r'.order = r.order) ∧ (∀ r ∈ c2, r ∈ c3) ∧
      x ∈ c3 ∧ y ∈ c3 ∧
      enumCmp (load 60 (runs [(10, c1), (20, c2), (50, c3)])) x.oid y.oid = none := by
  refine ⟨[⟨1, 100, 1⟩, ⟨2, 102, 2⟩], [⟨3, 100, 1⟩, ⟨2, 102, 2⟩],
    [⟨3, 100, 1⟩, ⟨2, 102, 2⟩, ⟨1, 105, 0⟩], ⟨1, 105, 0⟩, ⟨2, 102, 2⟩, ?_, ?_, ?_, by simp, by simp,
    by simp, by simp, by decide +kernel⟩
  · intro x hx y hy
    simp only [List.mem_cons, List.not_mem_nil, or_false] at hx hy
    rcases hx with h | h <;> rcases hy with h' | h' <;> subst h <;> subst h' <;> simp
  · intro x hx y hy
    simp only [List.mem_cons, List.not_mem_nil, or_false] at hx hy
    rcases hx with h | h <;> rcases hy with h' | h' <;> subst h <;> subst h' <;> simp
  · intro x hx y hy
    simp only [List.mem_cons, List.not_mem_nil, or_false] at hx hy
    rcases hx with h | h | h <;> rcases hy with h' | h' | h' <;> subst h <;> subst h' <;> simp

/-- **C142 fails** where recovery is behind an entry of the checkpoint: at LSN 30 the type has two
values, entered at LSN 10.  A value with a label between theirs was added at LSN 50, and reading
stops at its entry (src/catalog/o_enum_cache.c:427-431), so the second value is not found. -/
theorem C142_violated_lsn :
    ∃ (c1 c2 : List Val) (x y : Val), Catalog c1 ∧ Catalog c2 ∧ (∀ r ∈ c1, r ∈ c2) ∧
      x ∈ c1 ∧ y ∈ c1 ∧ enumCmp (load 30 (runs [(10, c1), (50, c2)])) x.oid y.oid = none := by
  refine ⟨[⟨1, 100, 2⟩, ⟨3, 103, 1⟩], [⟨1, 100, 2⟩, ⟨3, 103, 1⟩, ⟨2, 104, 3⟩], ⟨1, 100, 2⟩,
    ⟨3, 103, 1⟩, ?_, ?_, by simp, by simp, by simp, by decide +kernel⟩
  · intro x hx y hy
    simp only [List.mem_cons, List.not_mem_nil, or_false] at hx hy
    rcases hx with h | h <;> rcases hy with h' | h' <;> subst h <;> subst h' <;> simp
  · intro x hx y hy
    simp only [List.mem_cons, List.not_mem_nil, or_false] at hx hy
    rcases hx with h | h | h <;> rcases hy with h' | h' | h' <;> subst h <;> subst h' <;> simp

end Verif.EnumCache
