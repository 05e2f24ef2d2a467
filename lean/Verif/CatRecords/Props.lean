import Verif.CatRecords.Proofs

/-!
Properties C120–C124: the records of tables and indexes in the system trees.
-/

namespace Verif.CatRecords

/-! ## A table and an index for the cases -/

/-- An expression index that is an exclusion constraint, with one key field and one
expression field (x86-64 layout). -/
def exTIndex : TIndex where
  head := patch (patch (patch (patch (List.replicate 872 1) 76 (le 4 1663)) 80 (le 4 6)) 94 [1]) 864 [1]
  exprFields := List.replicate 92 7
  predicate := [123, 79, 125]
  predicateStr := some [97, 62, 48]
  expressions := [40, 123, 70, 125, 41]
  exclops := [96, 0, 0, 0]
  immediate := 1

/-- A plain index. -/
def exTIndex2 : TIndex where
  head := patch (patch (patch (patch (List.replicate 872 2) 76 (le 4 1663)) 80 (le 4 5)) 94 [1]) 864 [0]
  exprFields := []
  predicate := nullNode
  predicateStr := none
  expressions := nullNode
  exclops := []
  immediate := 1

/-- A table with two indexes and three fields: the second has a missing value passed by
value, the third one passed by reference. -/
def exTable : Table where
  head := patch (patch (patch (patch (List.replicate 104 3) 12 (le 4 1663)) 74 (le 2 3)) 78 (le 2 2)) 100 (le 2 1)
  indices := [exTIndex, exTIndex2]
  fields := patch (List.replicate 276 1) (2 * 92 + 80) [0]
  missing := [⟨0, .null⟩, ⟨1, .val [5, 0, 0, 0, 0, 0, 0, 0]⟩, ⟨1, .ref [20, 0, 0, 0, 104]⟩]

/-- An index under `CREATE INDEX CONCURRENTLY` (state 2). -/
def exIndex : Index where
  key := ⟨le 4 5 ++ le 4 16400 ++ le 4 16401 ++ le 4 1663, 5, 1⟩
  head := patch (patch (patch (List.replicate 184 3) 18 (le 2 1)) 108 (le 2 2)) 114 (le 2 1)
  leafTableFields := List.replicate 184 1
  leafFields := List.replicate 48 2
  predicate := nullNode
  predicateStr := none
  expressions := [40, 123, 70, 125, 41]
  duplicates := nullNode
  exclops := []
  immediate := 1
  state := 2

theorem x86_ok : x86.Ok := ⟨by decide, by decide⟩

theorem exTable_ok : exTable.Ok x86 where
  version := by decide +kernel
  head := by decide +kernel
  nindices := by decide +kernel
  indices := by
    intro x hx
    rcases List.mem_cons.1 hx with e | hx
    · subst e
      exact ⟨by decide +kernel, by decide +kernel, by decide +kernel,
        fun s hs => by injection hs with hs; subst hs; decide +kernel, by decide +kernel, by decide +kernel⟩
    · rcases List.mem_cons.1 hx with e | hx
      · subst e
        exact ⟨by decide +kernel, by decide +kernel, by decide +kernel, fun s hs => (by cases hs),
          by decide +kernel, by decide +kernel⟩
      · cases hx
  fields := by decide +kernel
  nmissing := by decide +kernel
  missing := by
    intro i m hm
    have hi : i < 3 := by
      rcases Nat.lt_or_ge i 3 with h | h
      · exact h
      · rw [List.getElem?_eq_none h] at hm; cases hm
    have h1 : byvalOf x86 exTable.fields 1 = true := by decide +kernel
    have h2 : byvalOf x86 exTable.fields 2 = false := by decide +kernel
    match i, hi with
    | 0, _ => cases hm; rfl
    | 1, _ => cases hm; exact ⟨h1, rfl⟩
    | 2, _ => cases hm; exact ⟨h2, by decide⟩

theorem exIndex_ok : exIndex.Ok x86 :=
  ⟨by decide +kernel, by decide +kernel, by decide +kernel, by decide +kernel, by decide +kernel,
    fun s hs => (by cases hs), by decide +kernel, by decide +kernel, by decide +kernel⟩

/-! ## C120 -/

/-- C120: a table is written, and a server of the same major version that reads the record
gets the same table: every member, index, field and missing value, and nothing is marked
as unreadable. -/
theorem C120_table (L : Lay) (hL : L.Ok) (ver ver' : Nat) (hv : ver < 2 ^ 32)
    (hm : ver / 10000 = ver' / 10000) (t : Table) (ht : t.Ok L) :
    ∃ data, serTable L ver t = some data ∧ deTable L ver' data = some (t, false) := by
  obtain ⟨data, hd⟩ := serTable_some ver ht
  refine ⟨data, hd, ?_⟩
  rw [deTable_of_rt (rt_table L hL ver ver' hv t ht data hd), got_same hm]

/-- The table `exTable`, written by 17.2 and read by 17.5. -/
theorem C120_table_case : x86.Ok ∧ exTable.Ok x86 ∧ exTable.HasNodes ∧ (170002 : Nat) / 10000 = 170005 / 10000 ∧
    ((serTable x86 170002 exTable).bind (deTable x86 170005)) = some (exTable, false) := by
  refine ⟨x86_ok, exTable_ok, ⟨exTIndex, List.mem_cons_self, Or.inl (by decide)⟩, by decide, by decide +kernel⟩

/-! ## C121 -/

/-- C121: the same for an index, its state included; the key is not part of the record. -/
theorem C121_index (L : Lay) (ver ver' : Nat) (hv : ver < 2 ^ 32)
    (hm : ver / 10000 = ver' / 10000) (x : Index) (hx : x.Ok L) :
    ∃ data, serIndex L ver x = some data ∧ deIndex L ver' x.key data = .ok x false := by
  refine ⟨_, serIndex_eq hx, ?_⟩
  rw [deIndex_head hx, rt_index L ver ver' hv x hx]
  unfold igot
  simp only [if_pos hm]

theorem C121_index_case : exIndex.Ok x86 ∧
    (serIndex x86 170002 exIndex).map (deIndex x86 170005 exIndex.key) = some (.ok exIndex false) :=
  ⟨exIndex_ok, by decide +kernel⟩

/-! ## C122 -/

/-- C122: a server of another major version reads everything but the node trees, which are
empty in what it gets; and it marks the table or index as unreadable exactly if there was
a node tree. -/
theorem C122_other_major (L : Lay) (hL : L.Ok) (ver ver' : Nat) (hv : ver < 2 ^ 32)
    (hm : ver / 10000 ≠ ver' / 10000) :
    (∀ t : Table, t.Ok L → ∃ data b, serTable L ver t = some data ∧
      deTable L ver' data = some (t.bare, b) ∧ (b = true ↔ t.HasNodes)) ∧
    (∀ x : Index, x.Ok L → ∃ data b, serIndex L ver x = some data ∧
      deIndex L ver' x.key data = .ok x.bare b ∧ (b = true ↔ x.HasNodes)) := by
  constructor
  · intro t ht
    obtain ⟨data, hd⟩ := serTable_some ver ht
    obtain ⟨g1, g2⟩ := got_other hm t ht
    refine ⟨data, _, hd, ?_, g2⟩
    rw [deTable_of_rt (rt_table L hL ver ver' hv t ht data hd), ← g1]
  · intro x hx
    obtain ⟨g1, g2⟩ := igot_other hm x hx
    refine ⟨_, _, serIndex_eq hx, ?_, g2⟩
    rw [deIndex_head hx, rt_index L ver ver' hv x hx, ← g1]
    show Res.ok { (igot ver ver' x).1 with state := x.state } _ = _
    rw [← igot_state ver ver' x]

theorem C122_other_major_case :
    (serTable x86 160004 exTable).bind (deTable x86 170005) = some (exTable.bare, true) ∧
    (serTable x86 160004 exTable.bare).bind (deTable x86 170005) = some (exTable.bare, false) ∧
    exTable.bare ≠ exTable ∧
    (serIndex x86 160004 exIndex).map (deIndex x86 170005 exIndex.key) = some (.ok exIndex.bare true) := by
  refine ⟨?_, ?_, ?_, ?_⟩ <;> decide +kernel

/-! ## C123 -/

/-- C123, part.  No truncated record of a table is accepted.  Of an index, no record that
lacks two bytes or more.  Missing: an index record that lacks its last byte, see
`C123_violated`. -/
theorem C123_partial (L : Lay) (hL : L.Ok) (ver ver' : Nat) (hv : ver < 2 ^ 32) :
    (∀ (t : Table) (a b : Bytes), t.Ok L → serTable L ver t = some (a ++ b) → b ≠ [] →
      deTable L ver' a = none) ∧
    (∀ (x : Index) (a b : Bytes), x.Ok L → serIndex L ver x = some (a ++ b) → 2 ≤ b.length →
      deIndex L ver' x.key a = .truncated) := by
  constructor
  · intro t a b ht hd hb
    have h := rt_table L hL ver ver' hv t ht _ hd []
    rw [List.append_nil] at h
    unfold deTable
    cases hp : deTableBody L ver' a with
    | none => rfl
    | some q =>
      obtain ⟨r, s⟩ := q
      have := st_table L ver' a r s b hp
      rw [h] at this
      injection this with this
      injection this with _ h2
      exact absurd (List.append_eq_nil_iff.1 h2.symm).2 hb
  · intro x a b hx hd hb
    rw [serIndex_eq hx] at hd
    injection hd with hd
    by_cases hl : a.length < L.oLen
    · unfold deIndex rd
      rw [if_pos hl]
    · obtain ⟨s, rfl⟩ : ∃ s, a = x.head ++ s := by
        rw [← hx.head] at hl
        refine ⟨a.drop x.head.length, ?_⟩
        have e := congrArg (List.take x.head.length) hd
        rw [List.take_left, List.take_append_of_le_length (by omega)] at e
        have e' := List.take_append_drop x.head.length a
        rw [← e] at e'
        exact e'.symm
      rw [List.append_assoc] at hd
      have hd := List.append_cancel_left hd
      rw [deIndex_head hx]
      have h := rt_index L ver ver' hv x hx [x.state]
      rw [hd] at h
      cases hp : deIndexBody L ver' x.key x.head s with
      | none => rfl
      | some q =>
        obtain ⟨r, u⟩ := q
        have := st_index L ver' x.key x.head s r u b hp
        rw [h] at this
        injection this with this
        injection this with _ h2
        have := congrArg List.length h2
        rw [List.length_append, List.length_singleton] at this
        omega

theorem C123_partial_case : exTable.Ok x86 ∧ exIndex.Ok x86 ∧
    (serTable x86 170002 exTable).map (fun d => deTable x86 170002 (d.take (d.length - 1))) = some none ∧
    (serTable x86 170002 exTable).map (fun d => deTable x86 170002 (d.take 1000)) = some none ∧
    (serIndex x86 170002 exIndex).map (fun d => deIndex x86 170002 exIndex.key (d.take (d.length - 2))) =
      some .truncated := by
  refine ⟨exTable_ok, exIndex_ok, ?_, ?_, ?_⟩ <;> decide +kernel

/-- C123 fails: every index record without its last byte is accepted, and the index is taken
as valid, whatever its state was. -/
theorem C123_violated :
    (∀ (L : Lay) (ver : Nat) (x : Index), ver < 2 ^ 32 → x.Ok L → ∃ a b,
      serIndex L ver x = some (a ++ [b]) ∧ deIndex L ver x.key a = .ok { x with state := stateValid } false) ∧
    exIndex.Ok x86 ∧ exIndex.state ≠ stateValid := by
  refine ⟨?_, exIndex_ok, by decide⟩
  intro L ver x hv hx
  refine ⟨x.head ++ serIndexTail ver x, x.state, ?_, ?_⟩
  · rw [serIndex_eq hx, List.append_assoc]
  · rw [deIndex_head hx]
    have h := rt_index L ver ver hv x hx []
    rw [List.append_nil] at h
    rw [h]
    unfold igot
    simp only [if_pos]

/-! ## C124 -/

/-- C124, part.  A server of the same major version as the writer may change and rewrite the
table; a server of any other version that reads the result marks it exactly if the changed
table has node trees.  Missing: a rewrite by a server of another major version, where
`C124_violated` shows that it is not so. -/
theorem C124_partial (L : Lay) (hL : L.Ok) (ver ver' : Nat) (hv : ver < 2 ^ 32) (hv' : ver' < 2 ^ 32)
    (hm : ver / 10000 = ver' / 10000) (change : Table → Table) (t : Table) (ht : t.Ok L)
    (hc : (change t).Ok L) (data : Bytes) (hd : serTable L ver t = some data) :
    ∃ data', rewriteTable L ver' change data = some data' ∧
      ∀ w, ver / 10000 ≠ w / 10000 →
        ∃ b, deTable L w data' = some ((change t).bare, b) ∧ (b = true ↔ (change t).HasNodes) := by
  obtain ⟨data', hd'⟩ := serTable_some ver' hc
  refine ⟨data', ?_, ?_⟩
  · unfold rewriteTable
    rw [deTable_of_rt (rt_table L hL ver ver' hv t ht data hd), got_same hm]
    exact hd'
  · intro w hw
    obtain ⟨g1, g2⟩ := got_other (by omega : ver' / 10000 ≠ w / 10000) _ hc
    refine ⟨_, ?_, g2⟩
    rw [deTable_of_rt (rt_table L hL ver' w hv' _ hc data' hd'), ← g1]

/-- Moving a table to another tablespace (o_tables.c:1437). -/
def moveTo (L : Lay) (spc : Nat) (t : Table) : Table := { t with head := patch t.head L.tSpc (le 4 spc) }

theorem C124_partial_case : exTable.Ok x86 ∧ exTable.HasNodes ∧
    ((serTable x86 170002 exTable).bind (rewriteTable x86 170005 (moveTo x86 5000))).bind (deTable x86 180001) =
      some (moveTo x86 5000 exTable.bare, true) ∧
    moveTo x86 5000 exTable ≠ exTable := by
  refine ⟨exTable_ok, ⟨exTIndex, List.mem_cons_self, Or.inl (by decide)⟩, ?_, ?_⟩ <;> decide +kernel

/-- C124 fails: a server of another major version reads a table with node trees, marks it,
changes something else and writes it back.  From then on the record reads as a table
without node trees that needs no refresh: its expressions and predicates are lost and
nothing says so.  `change` is any change that leaves the indexes' node trees alone. -/
theorem C124_violated :
    (∀ (L : Lay) (ver ver' : Nat) (change : Table → Table) (t : Table), L.Ok → ver < 2 ^ 32 → ver' < 2 ^ 32 →
      ver / 10000 ≠ ver' / 10000 → t.Ok L → t.HasNodes → (change t.bare).Ok L →
      ∃ data data', serTable L ver t = some data ∧ deTable L ver' data = some (t.bare, true) ∧
        rewriteTable L ver' change data = some data' ∧ deTable L ver' data' = some (change t.bare, false)) ∧
    (exTable.HasNodes ∧ (moveTo x86 5000 exTable.bare).Ok x86 ∧ ¬ (moveTo x86 5000 exTable.bare).HasNodes) := by
  refine ⟨?_, ⟨exTIndex, List.mem_cons_self, Or.inl (by decide)⟩, ?_, ?_⟩
  · intro L ver ver' change t hL hv hv' hm ht hn hc
    obtain ⟨data, hd⟩ := serTable_some ver ht
    obtain ⟨data', hd'⟩ := serTable_some ver' hc
    obtain ⟨g1, g2⟩ := got_other hm t ht
    have e : deTable L ver' data = some (t.bare, true) := by
      rw [deTable_of_rt (rt_table L hL ver ver' hv t ht data hd), ← g1, ← g2.2 hn]
    refine ⟨data, data', hd, e, ?_, ?_⟩
    · unfold rewriteTable
      rw [e]
      exact hd'
    · rw [deTable_of_rt (rt_table L hL ver' ver' hv' _ hc data' hd'), got_same rfl]
  · have h := bare_ok exTable_ok
    exact ⟨by decide +kernel, by decide +kernel, by decide +kernel, h.indices, by decide +kernel, by decide +kernel,
      h.missing⟩
  · rintro ⟨x, hx, h⟩
    obtain ⟨y, _, e⟩ := List.mem_map.1 hx
    subst e
    rcases h with h | h <;> exact h rfl

end Verif.CatRecords
