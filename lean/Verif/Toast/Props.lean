/-
Properties of values stored out of line.
-/
import Verif.Toast.Canon

namespace Verif.Toast

/-- **C75 (in part).**  After any statements, the table reads as if values were never compressed
or moved: each statement is accepted or rejected as the specification says, no value is
unreadable, and nothing crashes.  Missing: UPDATEs that give a value out of line an equal one of
another stored size, or change the key to one that compares equal (`calmRun`), and tables so wide
that 12 bytes for each toastable column do not fit (`Good.narrow`); for them the claim is false
(`C75_*_violated`). -/
theorem C75_reads_back_partial (cfg : Cfg) (hg : Good cfg) (ops : List Op)
    (hc : calmRun cfg ⟨[], []⟩ ops = true) :
    ∃ db, run cfg ops = some db ∧
      readDb cfg db = some (Spec.run cfg.modes.length cfg.cls cfg.unpack ops) := by
  obtain ⟨db, h1, h2⟩ := runFrom_ok hg ops ⟨[], []⟩ [] (init_inv cfg) hc
  exact ⟨db, h1, readRows_ok hg h2.rows⟩

/-- **C75 (in part).**  The same for all statements that give each column null, a value which is
not compressed, or the value this column has in some row, if keys that compare equal are equal.
Missing: values that come compressed or from another column or table. -/
theorem C75_plain_statements_partial (cfg : Cfg) (hg : Good cfg)
    (hcls : ∀ a b, cfg.cls a = cfg.cls b → a = b) (ops : List Op) (hp : ∀ op ∈ ops, op.plain) :
    ∃ db, run cfg ops = some db ∧
      readDb cfg db = some (Spec.run cfg.modes.length cfg.cls cfg.unpack ops) := by
  obtain ⟨db, h1, h2⟩ := plain_run hg hcls ops ⟨[], []⟩ [] (init_inv cfg) hp
  exact ⟨db, h1, readRows_ok hg h2.rows⟩

/-- **C75 (in part).**  No chunk is left behind: there is no chunk of a row that is not in the
table, and none of a column that is not out of line.  Under the conditions of
`C75_reads_back_partial`. -/
theorem C75_no_chunk_left_partial (cfg : Cfg) (hg : Good cfg) (ops : List Op)
    (hc : calmRun cfg ⟨[], []⟩ ops = true) (db : Db) (hr : run cfg ops = some db) :
    ∀ e ∈ db.tree, ∃ r ∈ db.rows, cfg.cls r.key = e.1.cls ∧
      ∃ x s, r.cells[e.1.att]? = some (.toasted x s) := by
  obtain ⟨db', h1, h2⟩ := runFrom_ok hg ops ⟨[], []⟩ [] (init_inv cfg) hc
  have : db = db' := by
    have h1' : run cfg ops = some db' := h1
    rw [hr] at h1'
    simpa using h1'
  subst this
  have hrow : ∀ (rs : List Row) (l : Spec.Tbl), RowsOk cfg (fun _ _ _ => True) db.tree rs l →
      ∀ r ∈ rs, ∃ vs, RowOk cfg (fun _ _ _ => True) db.tree r vs := by
    intro rs
    induction rs with
    | nil => intro l _ r hr; simp at hr
    | cons r0 rs ih =>
      intro l h r hr
      cases l with
      | nil => exact False.elim h
      | cons x l =>
        rcases List.mem_cons.mp hr with hr | hr
        · subst hr; exact ⟨x.2, h.2.1⟩
        · exact ih l h.2.2 r hr
  intro e he
  have hmem : e ∈ sel e.1.cls e.1.att db.tree := by
    unfold sel
    exact List.mem_filter.mpr ⟨he, by simp⟩
  by_cases hex : ∃ r ∈ db.rows, cfg.cls r.key = e.1.cls
  · obtain ⟨r, hr, hk⟩ := hex
    refine ⟨r, hr, hk, ?_⟩
    obtain ⟨vs, hok⟩ := hrow db.rows _ h2.rows r hr
    by_cases hlt : e.1.att < cfg.modes.length
    · have hc1 : e.1.att < r.cells.length := by rw [hok.len]; exact hlt
      have hc2 : e.1.att < vs.length := by rw [hok.lenv]; exact hlt
      have hst := hok.cells e.1.att _ _ (List.getElem?_eq_getElem hc1)
        (List.getElem?_eq_getElem hc2)
      rw [List.getElem?_eq_getElem hc1]
      cases hcell : r.cells[e.1.att] with
      | null =>
        rw [hcell] at hst
        rw [← hk, hst.2] at hmem
        simp at hmem
      | inline f =>
        rw [hcell] at hst
        rw [← hk, hst.2] at hmem
        simp at hmem
      | toasted x s => exact ⟨x, s, rfl⟩
      | pointer => rw [hcell] at hst; exact False.elim hst
    · rw [← hk, hok.beyond _ (by omega)] at hmem
      simp at hmem
  · exfalso
    rw [h2.none e.1.cls (fun r hr hk => hex ⟨r, hr, hk⟩) e.1.att] at hmem
    simp at hmem

/-- **C76 (in part).**  A row is never too large if it fits with all its toastable columns moved
out of line, 12 bytes counted for each; and a row without pointers that fits as it is, is stored
as it is.  Missing: columns that are null need no such 12 bytes; a row with many of them is
rejected although it fits with its large values moved (`C76_null_columns_violated`). -/
theorem C76_row_fits_partial (cfg : Cfg) (hp : 0 < cfg.ptr) (cs : List Col)
    (h0 : ∀ c ∈ cs, c.flag = .off) :
    (cfg.base + 12 * cs.length ≤ cfg.maxTuple → fits cfg (toastCols cfg cs) = true) ∧
      (fits cfg cs = true → (∀ c ∈ cs, c.d.isPtr = false) → toastCols cfg cs = cs) := by
  refine ⟨fun hf => toastCols_fits hp hf h0, ?_⟩
  intro hf hnp
  unfold toastCols
  have hany : cs.any (·.d.isPtr) = false := by
    rw [Bool.eq_false_iff]
    intro h
    obtain ⟨c, hc, hpc⟩ := List.any_eq_true.mp h
    rw [hnp c hc] at hpc
    cases hpc
  rw [if_pos (by simp [hany, hf])]

/-! ### Concrete cases -/

/-- A value that gets smaller when it is compressed. -/
def soft : Bytes := List.replicate 60 7

/-- The value when compressed. -/
def softPacked : Bytes := List.replicate 31 8

/-- A value that does not get smaller. -/
def hard : Bytes := List.replicate 50 9

/-- A table with an EXTENDED, an EXTERNAL and a MAIN column; keys 2n and 2n + 1 compare equal. -/
def exCfg : Cfg where
  modes := [.extended, .external, .main]
  maxTuple := 50
  base := 10
  ptr := 20
  cls := fun k => k / 2
  chunk := fun _ => 8
  pack := fun b => if b = soft then some softPacked else none
  unpack := fun b => if b = softPacked then soft else b

theorem exCfg_good : Good exCfg where
  unpack := by
    intro b p h
    simp only [exCfg] at h ⊢
    by_cases hb : b = soft
    · rw [if_pos hb] at h
      have : softPacked = p := by simpa using h
      rw [if_pos this.symm, hb]
    · rw [if_neg hb] at h; cases h
  chunk := by intro k; simp [exCfg]
  ptr := by decide
  narrow := by decide

/-- Statements that insert, replace, copy, move and remove values out of line. -/
def exOps : List Op :=
  [.insert 2 [.value ⟨false, soft⟩, .value ⟨false, hard⟩, .value ⟨false, hard⟩],
   .insert 4 [.null, .value ⟨false, [1, 2]⟩, .heap ⟨true, softPacked⟩],
   .insert 3 [.null, .null, .null],
   .update 2 2 [.copy 2 0, .value ⟨false, soft⟩, .copy 4 2],
   .update 4 6 [.copy 2 1, .copy 4 1, .copy 4 2],
   .insert 8 [.value ⟨false, hard⟩, .null, .null],
   .delete 8]

/-- The hypotheses of `C75_reads_back_partial` are met, and values are out of line. -/
theorem ex_calm : calmRun exCfg ⟨[], []⟩ exOps = true := by decide +kernel

theorem ex_reads : (run exCfg exOps).bind (readDb exCfg) =
      some [(6, [some soft, some [1, 2], some soft]), (2, [some soft, some soft, some soft])] ∧
    ((run exCfg exOps).map fun db => db.tree.length) = some 31 := by
  refine ⟨?_, ?_⟩ <;> decide +kernel

/-- The hypotheses of `C75_plain_statements_partial` are met by statements like these, for keys
that compare equal only if they are equal. -/
def plainOps : List Op :=
  [.insert 2 [.value ⟨false, soft⟩, .value ⟨false, hard⟩, .value ⟨false, hard⟩],
   .insert 4 [.copy 2 0, .null, .copy 2 2],
   .update 2 2 [.value ⟨false, soft⟩, .copy 2 1, .null],
   .update 2 3 [.copy 2 0, .value ⟨false, hard⟩, .value ⟨false, soft⟩],
   .delete 4]

theorem plainOps_plain : ∀ op ∈ plainOps, op.plain := by
  intro op hop i s hs
  simp only [plainOps, List.mem_cons, List.not_mem_nil, or_false] at hop
  rcases hop with rfl | rfl | rfl | rfl | rfl <;> simp only [Op.srcs] at hs <;>
    (match i, hs with
      | 0, hs => simp at hs; try (subst hs; simp [plainSrc])
      | 1, hs => simp at hs; try (subst hs; simp [plainSrc])
      | 2, hs => simp at hs; try (subst hs; simp [plainSrc])
      | _ + 3, hs => simp at hs)

theorem ex_plain : (run { exCfg with cls := id } plainOps).bind (readDb { exCfg with cls := id })
    = some [(3, [some soft, some hard, some soft])] := by decide +kernel

/-- The row of `C76_row_fits_partial`: three values of more than 50 bytes in a row of 50. -/
theorem ex_fits : fits exCfg (toastCols exCfg
      [⟨.extended, .flat ⟨false, soft⟩, .off⟩, ⟨.external, .flat ⟨false, soft⟩, .off⟩,
       ⟨.main, .flat ⟨false, hard⟩, .off⟩]) = true ∧
    fits exCfg [⟨.extended, .flat ⟨false, soft⟩, .off⟩, ⟨.external, .flat ⟨false, soft⟩, .off⟩,
       ⟨.main, .flat ⟨false, hard⟩, .off⟩] = false := by
  refine ⟨?_, ?_⟩ <;> decide +kernel

/-! ### Failing cases -/

/-- **C75 is violated** by an UPDATE that gives a column an equal value in another stored form.
The value is first copied from an EXTERNAL column, so that it is out of line uncompressed; then it
is set to an equal value, which gets compressed.  The old chunks are kept, but the row has the
size of the new form: the value can no longer be read. -/
theorem C75_equal_value_violated : ∃ db,
    Good exCfg ∧
    run exCfg [.insert 2 [.null, .value ⟨false, soft⟩, .null],
      .update 2 2 [.copy 2 1, .copy 2 1, .null],
      .update 2 2 [.value ⟨false, soft⟩, .copy 2 1, .null]] = some db ∧
    readDb exCfg db = none ∧
    Spec.run exCfg.modes.length exCfg.cls exCfg.unpack
      [.insert 2 [.null, .value ⟨false, soft⟩, .null],
      .update 2 2 [.copy 2 1, .copy 2 1, .null],
      .update 2 2 [.value ⟨false, soft⟩, .copy 2 1, .null]]
      = [(2, [some soft, some soft, none])] := by
  refine ⟨_, exCfg_good, Option.some_get (by decide +kernel) |>.symm, ?_, ?_⟩ <;> decide +kernel

/-- **C75 is violated** by an UPDATE of the key to one that compares equal but has other bytes
(1.0 and 1.00), if the row has a value out of line: the new chunks are inserted before the old
ones are removed, and the statement fails. -/
theorem C75_equal_key_violated :
    (run exCfg [.insert 2 [.value ⟨false, hard⟩, .null, .null],
      .update 2 3 [.copy 2 0, .null, .null]]).bind (readDb exCfg)
      = some [(2, [some hard, none, none])] ∧
    Spec.run exCfg.modes.length exCfg.cls exCfg.unpack
      [.insert 2 [.value ⟨false, hard⟩, .null, .null],
      .update 2 3 [.copy 2 0, .null, .null]] = [(3, [some hard, none, none])] := by
  refine ⟨?_, ?_⟩ <;> decide +kernel

/-- A table with more toastable columns than a row of pointers has room for (with the sizes of
the code, about 225). -/
def wideCfg : Cfg := { exCfg with modes := [.extended, .extended, .extended, .extended] }

/-- **C75 is violated** in a wide table by a value that comes as a pointer (`INSERT ... SELECT`
from a heap table): the pointer itself is stored in the row, and read as something else. -/
theorem C75_pointer_in_row_violated : ∃ db,
    run wideCfg [.insert 2 [.heap ⟨false, hard⟩, .null, .null, .null]] = some db ∧
    readDb wideCfg db = none ∧
    Spec.run wideCfg.modes.length wideCfg.cls wideCfg.unpack
      [.insert 2 [.heap ⟨false, hard⟩, .null, .null, .null]]
      = [(2, [some hard, none, none, none])] := by
  refine ⟨_, Option.some_get (by decide +kernel) |>.symm, ?_, ?_⟩ <;> decide +kernel

/-- **C76 is violated** in a wide table: one value is not null; moved out of line it would leave
a row of 22 bytes, where 50 are allowed; but nothing is moved and the row is rejected. -/
theorem C76_null_columns_violated :
    doOp wideCfg ⟨[], []⟩ (.insert 2 [.value ⟨false, hard⟩, .null, .null, .null]) = .error ∧
    tupleLen wideCfg [⟨.extended, .flat ⟨false, hard⟩, .on⟩, ⟨.extended, .null, .off⟩,
      ⟨.extended, .null, .off⟩, ⟨.extended, .null, .off⟩] = 22 ∧ wideCfg.maxTuple = 50 := by
  refine ⟨?_, ?_, ?_⟩ <;> decide +kernel

end Verif.Toast
