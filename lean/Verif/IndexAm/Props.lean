/-
Properties of secondary indexes.
-/
import Verif.IndexAm.Unique

namespace Verif.IndexAm

/-- **C73 (in part).**  After any statements, a scan of any index for any condition on its
columns gives the rows which meet the condition and the index's predicate, each once; an
index-only scan gives their values in the index's columns.  Missing: indexes which list a
column twice, list a column of the primary key in INCLUDE, or have a column of type `tid`;
for them the claim is false (`C73_*_violated`). -/
theorem C73_scan_finds_rows_partial (cls : Nat → Nat) (t : Table) (ds : List Def)
    (hd : ∀ d ∈ ds, Plain t d) (ops : List Op) (i : Nat) (d : Def) (hi : ds[i]? = some d) :
    ∃ es, (run cls t ds ops).trees[i]? = some es ∧
      ∀ q, (scan cls t d (run cls t ds ops) es q).Perm (wanted d (run cls t ds ops).rows q) ∧
        (scanOnly t d es q).Perm ((wanted d (run cls t ds ops).rows q).map (values d)) := by
  have hinv := run_ok (cls := cls) hd ops
  obtain ⟨es, hes⟩ := at_of_length hinv.len.symm hi
  have hp := hd d (List.mem_of_getElem? hi)
  have hh := hinv.trees i d es hi hes
  exact ⟨es, hes, fun q => ⟨scan_ok hp hinv.keys hh q, scanOnly_ok hp hh q⟩⟩

/-- No value is null in the INCLUDE columns of the index and in the primary key. -/
def noNulls (t : Table) (d : Def) (cols : List (Option Nat)) : Prop :=
  ∀ f ∈ d.fields.drop d.nkey ++ t.pk.getD [], cols.getD f.att none ≠ none

/-- The statement puts no null into the INCLUDE columns or the primary key. -/
def Op.noNulls (t : Table) (d : Def) : Op → Prop
  | .insert cols => IndexAm.noNulls t d cols
  | .update _ cols => IndexAm.noNulls t d cols
  | .delete _ => True

/-- The statement is no UPDATE. -/
def Op.noUpdate : Op → Prop
  | .update _ _ => False
  | _ => True

theorem noNulls_get {t : Table} {d : Def} (h : Plain t d) {r : Row} (hn : noNulls t d r.cols) :
    ∀ f ∈ d.fields.drop d.nkey ++ t.pk.getD [], r.get f ≠ none := by
  intro f hf
  have hk : f.kind ≠ .ctid := by
    rcases List.mem_append.mp hf with hf' | hf'
    · exact h.kinds f (List.mem_of_mem_drop hf')
    · rw [(h.pkCols f hf').1]; intro hc; cases hc
  have := hn f hf
  unfold Row.get
  cases hkk : f.kind with
  | ctid => exact absurd hkk hk
  | col => exact this
  | expr => exact this

/-- **C74 (in part).**  A unique index: no two rows for which its predicate holds have
equal keys without nulls, if no null is put into its INCLUDE columns. -/
theorem C74_unique_partial (cls : Nat → Nat) (t : Table) (ds : List Def)
    (hd : ∀ d ∈ ds, Plain t d) (d : Def) (hi : d ∈ ds) (hu : d.unique = true)
    (ops : List Op) (ho : ∀ op ∈ ops, op.noNulls t d) :
    (run cls t ds ops).rows.Pairwise fun a b =>
      ¬ (d.pred a = true ∧ d.pred b = true ∧ (∀ v ∈ keyValues d a, v ≠ none) ∧
        sameKey cls d a b) := by
  obtain ⟨i, hi'⟩ := List.mem_iff_getElem?.mp hi
  have hpl := hd d hi
  have hck : Checked t d (fun r => ∀ v ∈ keyValues d r, v ≠ none) (fun r => noNulls t d r.cols)
      True := by
    refine ⟨hu, ?_, ?_, ?_⟩
    · intro a b he ha; rw [← he]; exact ha
    · intro r hF hC
      rw [hu, hasNulls_entry hpl hC (noNulls_get hpl hF)]
      cases d.nnd <;> rfl
    · intro _ r hF hC
      rw [hu, hasNulls_entry hpl hC (noNulls_get hpl hF)]
      rfl
  have h := run_uni (cls := cls) hd hi' hck ops (by
    intro op hop
    have := ho op hop
    cases op with
    | insert cols => exact fun _ => this
    | update key cols => exact ⟨trivial, fun _ => this⟩
    | delete key => trivial)
  refine h.apart.imp ?_
  intro a b hab ⟨h1, h2, h3, h4⟩
  refine hab h1 h2 h3 ?_ h4
  intro v hv hn
  subst hn
  unfold sameKey at h4
  have : (none : Option Nat) ∈ (keyValues d a).map (Option.map cls) := by
    rw [h4]; exact List.mem_map.mpr ⟨none, hv, rfl⟩
  obtain ⟨w, hw, hwn⟩ := List.mem_map.mp this
  rw [Option.map_eq_none_iff] at hwn
  exact h3 w hw hwn

/-- **C74 (in part).**  A unique index with NULLS NOT DISTINCT: no two rows for which its
predicate holds have equal keys, nulls being equal, as long as there is no UPDATE. -/
theorem C74_nulls_not_distinct_partial (cls : Nat → Nat) (t : Table) (ds : List Def)
    (hd : ∀ d ∈ ds, Plain t d) (d : Def) (hi : d ∈ ds) (hu : d.unique = true)
    (hn : d.nnd = true) (ops : List Op) (ho : ∀ op ∈ ops, op.noUpdate) :
    (run cls t ds ops).rows.Pairwise fun a b =>
      ¬ (d.pred a = true ∧ d.pred b = true ∧ sameKey cls d a b) := by
  obtain ⟨i, hi'⟩ := List.mem_iff_getElem?.mp hi
  have hck : Checked t d (fun _ => True) (fun _ => True) False := by
    refine ⟨hu, fun _ _ _ h => h, ?_, fun h => h.elim⟩
    intro r _ _
    rw [hu, hn]; rfl
  have h := run_uni (cls := cls) hd hi' hck ops (by
    intro op hop
    have := ho op hop
    cases op with
    | insert cols => exact fun _ => trivial
    | update key cols => exact this.elim
    | delete key => trivial)
  refine h.apart.imp ?_
  intro a b hab ⟨h1, h2, h4⟩
  exact hab h1 h2 trivial trivial h4

/-! ## Cases which meet the hypotheses -/

def exCol (a : Nat) : Field := { kind := .col, att := a, opc := 1 }

/-- `t (id, a, b, c)` with the primary key `(id)`. -/
def exT : Table := ⟨some [exCol 0]⟩

/-- `UNIQUE (a) INCLUDE (b)`, `(b, id, a)`, and `((expression 4), c) WHERE a > 5`. -/
def exDefs : List Def :=
  [ { fields := [exCol 1, exCol 2], nkey := 1, unique := true },
    { fields := [exCol 2, exCol 0, exCol 1], nkey := 3 },
    { fields := [{ kind := .expr, att := 4, opc := 2 }, exCol 3], nkey := 2,
      pred := fun r => decide (5 < (r.cols.getD 1 none).getD 0) } ]

theorem exDefs_plain : ∀ d ∈ exDefs, Plain exT d := by
  intro d hd
  simp only [exDefs, List.mem_cons, List.not_mem_nil, or_false] at hd
  rcases hd with rfl | rfl | rfl <;>
    exact ⟨by decide, by decide, by decide, by decide, by decide, by decide, by decide⟩

/-- The second INSERT is rejected (`a` = 3 is there), the others are not. -/
def exOps : List Op :=
  [ .insert [some 1, some 3, some 9, some 4, some 13],
    .insert [some 2, some 3, some 9, some 4, some 13],
    .insert [some 2, some 8, some 9, none, some 13],
    .update [some 1] [some 1, some 7, some 9, some 4, some 17],
    .insert [some 3, some 3, some 6, some 1, some 13],
    .delete [some 2] ]

example : (run id exT exDefs exOps).rows.map (·.cols) =
    [[some 3, some 3, some 6, some 1, some 13], [some 1, some 7, some 9, some 4, some 17]] := by
  decide +kernel

example : (run id exT exDefs exOps).trees =
    [[[some 3, some 6, some 3], [some 7, some 9, some 1]],
      [[some 6, some 3, some 3], [some 9, some 1, some 7]],
      [[some 17, some 4, some 1]]] := by
  decide +kernel

example : (∀ d ∈ exDefs, Plain exT d) ∧
    (∃ d, exDefs[0]? = some d ∧ d.unique = true ∧ ∀ op ∈ exOps, op.noNulls exT d) := by
  refine ⟨exDefs_plain, _, rfl, rfl, ?_⟩
  intro op hop
  simp only [exOps, List.mem_cons, List.not_mem_nil, or_false] at hop
  rcases hop with rfl | rfl | rfl | rfl | rfl | rfl
  all_goals first | exact trivial | (unfold Op.noNulls noNulls; decide)

/-- `UNIQUE NULLS NOT DISTINCT (a)`. -/
def exNnd : Def := { fields := [exCol 1], nkey := 1, unique := true, nnd := true }

theorem exNnd_plain : Plain exT exNnd :=
  ⟨by decide, by decide, by decide, by decide, by decide, by decide, by decide⟩

def exNndOps : List Op :=
  [.insert [some 1, none], .insert [some 2, none], .insert [some 2, some 4], .delete [some 1],
    .insert [some 3, none]]

example : (∀ op ∈ exNndOps, op.noUpdate) ∧
    (run id exT [exNnd] exNndOps).rows.map (·.cols) = [[some 3, none], [some 2, some 4]] := by
  refine ⟨?_, by decide +kernel⟩
  intro op hop
  simp only [exNndOps, List.mem_cons, List.not_mem_nil, or_false] at hop
  rcases hop with rfl | rfl | rfl | rfl | rfl <;> exact trivial

/-! ## Failing cases -/

/-- `(a) INCLUDE (id)`, where `id` is the primary key. -/
def exPkIncl : Def := { fields := [exCol 1, exCol 0], nkey := 1 }

/-- **C73 fails if a column of the primary key is in the INCLUDE list**: of two rows with
the same `a`, the second is not found through the index, and no error is reported; if the
second is then deleted, the first is not found any more either. -/
theorem C73_primary_key_in_include_violated :
    ((run id exT [exPkIncl] [.insert [some 1, some 7], .insert [some 2, some 7]]).rows.map (·.cols) =
        [[some 2, some 7], [some 1, some 7]] ∧
      (run id exT [exPkIncl] [.insert [some 1, some 7], .insert [some 2, some 7]]).trees =
        [[[some 7, some 1]]]) ∧
    ((run id exT [exPkIncl]
        [.insert [some 1, some 7], .insert [some 2, some 7], .delete [some 2]]).rows.map (·.cols) =
        [[some 1, some 7]] ∧
      (run id exT [exPkIncl]
        [.insert [some 1, some 7], .insert [some 2, some 7], .delete [some 2]]).trees = [[]]) := by
  refine ⟨⟨?_, ?_⟩, ?_, ?_⟩ <;> decide +kernel

/-- `(a, a, b)`. -/
def exTwice : Def := { fields := [exCol 1, exCol 1, exCol 2], nkey := 3 }

/-- **C73 fails if a column is listed twice**: the null in `b` is stored as the datum 0; a
value of `b` changed by UPDATE stays as it was in the index; the entry of a deleted row
stays. -/
theorem C73_column_twice_violated :
    scanOnly exT exTwice ((run id exT [exTwice] [.insert [some 1, some 5, none]]).trees.getD 0 [])
        (fun _ => true) = [[some 5, some 5, some 0]] ∧
    ((run id exT [exTwice] [.insert [some 1, some 5, some 6],
        .update [some 1] [some 1, some 5, some 8]]).rows.map (·.cols) = [[some 1, some 5, some 8]] ∧
      scanOnly exT exTwice ((run id exT [exTwice] [.insert [some 1, some 5, some 6],
        .update [some 1] [some 1, some 5, some 8]]).trees.getD 0 []) (fun _ => true) =
        [[some 5, some 5, some 6]]) ∧
    (run id exT [exTwice] [.insert [some 1, some 5, some 6], .delete [some 1]]).trees =
      [[[some 5, some 6, some 1]]] := by
  refine ⟨?_, ⟨?_, ?_⟩, ?_⟩ <;> decide +kernel

/-- `(a)` on a table without a primary key, whose column `a` has the type `tid`. -/
def exTid : Def := { fields := [{ kind := .col, att := 0, opc := 1, tid := true }], nkey := 1 }

/-- **C73 fails for columns of type `tid`**: after UPDATE the index has the old value. -/
theorem C73_tid_column_violated :
    (run id ⟨none⟩ [exTid] [.insert [some 5], .update [some 1] [some 6]]).rows.map (·.cols) =
        [[some 6]] ∧
      scanOnly ⟨none⟩ exTid ((run id ⟨none⟩ [exTid]
        [.insert [some 5], .update [some 1] [some 6]]).trees.getD 0 []) (fun _ => true) =
        [[some 5]] := by
  refine ⟨?_, ?_⟩ <;> decide +kernel

/-- `UNIQUE (a) INCLUDE (b)`. -/
def exIncl : Def := { fields := [exCol 1, exCol 2], nkey := 1, unique := true }

/-- **C74 fails if an INCLUDE column is null**: two rows with `a` = 5 get in. -/
theorem C74_null_in_include_violated :
    (run id exT [exIncl] [.insert [some 1, some 5, none], .insert [some 2, some 5, none]]).rows.map
      (·.cols) = [[some 2, some 5, none], [some 1, some 5, none]] ∧
    (run id exT [exIncl] [.insert [some 1, some 5, some 0], .insert [some 2, some 5, some 0]]).rows.map
      (·.cols) = [[some 1, some 5, some 0]] := by
  refine ⟨?_, ?_⟩ <;> decide +kernel

/-- **C74 fails for UPDATE with NULLS NOT DISTINCT**: the INSERT of a second null is
rejected, the UPDATE to it is not. -/
theorem C74_nulls_not_distinct_update_violated :
    (run id exT [exNnd] [.insert [some 1, none], .insert [some 2, none]]).rows.map (·.cols) =
        [[some 1, none]] ∧
      (run id exT [exNnd] [.insert [some 1, none], .insert [some 2, some 5],
        .update [some 2] [some 2, none]]).rows.map (·.cols) = [[some 2, none], [some 1, none]] := by
  refine ⟨?_, ?_⟩ <;> decide +kernel

end Verif.IndexAm
