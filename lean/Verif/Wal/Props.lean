import Verif.Wal.StreamInv
/-!
# WAL: property theorems C01 - C06

Statements use the format (`encContainer`), the reader (`parseContainer`), the
writer (`Backend.run`) and the specs of `Spec.lean` and `StreamSpec.lean`.
-/

namespace Verif.Wal

/-! ### Helpers -/

theorem declared_after (c : Ctx) (rs : List Rec) (r : Rec) (h : c.Declared rs) :
    (c.after r).Declared (rs ++ [r]) := by
  obtain ⟨h1, h2, h3, h4, h5⟩ := h
  have key : ∀ {α : Type} (f : Rec → Option α), lastDeclared f (rs ++ [r]) =
      (f r).or (lastDeclared f rs) := by
    intro α f
    simp only [lastDeclared, List.filterMap_append, List.filterMap_cons, List.filterMap_nil]
    cases hf : f r <;> simp
  unfold Ctx.Declared
  simp only [key]
  cases r <;>
    simp_all [Ctx.after, Rec.declaresXid, Rec.declaresLogicalXid, Rec.declaresOids,
      Rec.declaresTree, Rec.declaresIdentity]

theorem declared_expected (v : Nat) (rs : List Rec) : ∀ (off : Nat) (c : Ctx) (pre : List Rec),
    c.Declared pre → ∀ (i : Nat) (d : Delivered), (expected v off c rs)[i]? = some d →
    d.ctx.Declared (pre ++ (rs.map (Rec.asVersion v)).take (i + 1)) := by
  induction rs with
  | nil => intro off c pre h i d hd; simp [expected] at hd
  | cons r rs ih =>
    intro off c pre h i d hd
    simp only [expected] at hd
    cases i with
    | zero =>
      simp only [List.getElem?_cons_zero, Option.some.injEq] at hd
      subst hd
      simpa using declared_after c pre (r.asVersion v) h
    | succ i =>
      simp only [List.getElem?_cons_succ] at hd
      have := ih _ _ (pre ++ [r.asVersion v]) (declared_after c pre _ h) i d hd
      simpa using this

theorem inv_run (p : Prop) (ops : List Op) : ∀ (b : Backend) (g : Ghost) ich iev irq,
    Inv p b g ich iev irq → Legal g ops → (p → NoEmptyFinish g ops) →
    ∃ g', Inv p (b.run ops) g' (ich ++ issuedChanges ops) (iev ++ issuedEvents ops)
      (irq ++ requiredEvents g ops) := by
  induction ops with
  | nil =>
    intro b g ich iev irq h _ _
    exact ⟨g, by simpa [issuedChanges, issuedEvents, requiredEvents, Backend.run] using h⟩
  | cons op ops ih =>
    intro b g ich iev irq h hl hn
    have h1 := inv_step h hl.1 (fun hp => (hn hp).1)
    obtain ⟨g', h'⟩ := ih _ _ _ _ _ h1 hl.2 (fun hp => (hn hp).2)
    exact ⟨g', by simpa [issuedChanges, issuedEvents, requiredEvents, Backend.run] using h'⟩

theorem inv_init (p : Prop) : Inv p {} {} [] [] [] :=
  ⟨[], [], ⟨rfl, rfl, by simp, trivial, Or.inl ⟨rfl, rfl⟩, List.Sublist.refl _, rfl,
    fun h => absurd NoKey.nil h, fun _ => List.Sublist.refl _, fun _ => rfl,
    fun _ => List.Sublist.refl _, fun _ h => absurd h (by decide)⟩, fun _ => NoKey.nil,
    fun h => absurd h (by decide), trivial⟩

theorem readAll_of {cs : List (Header × List Rec)} (tail)
    (h : ∀ q ∈ cs, q.1.version = 19 ∧ WritableSeq 19 replDefault q.2) :
    (∀ o ∈ readAll tail (cs.map fun q => encContainer q.1 q.2), o.status = .ok) ∧
    (∀ {α} (f : Ctx → Rec → Option α),
      (delivered tail (cs.map fun q => encContainer q.1 q.2)).filterMap (fun d => f d.ctx d.record) =
      cs.flatMap fun q => obs f {} q.2) := by
  induction cs with
  | nil => exact ⟨by simp [readAll], fun _ => rfl⟩
  | cons q cs ih =>
    obtain ⟨ih1, ih2⟩ := ih (fun q' hq' => h q' (List.mem_cons_of_mem _ hq'))
    obtain ⟨hv, hw⟩ := h q (List.mem_cons_self ..)
    obtain ⟨⟨v, xi, oi⟩, rs⟩ := q
    simp only at hv hw
    subst hv
    have hr := container_roundtrip ⟨19, xi, oi⟩ rs tail
      ⟨Or.inr ⟨by simp, by simp⟩, fun hc => by simp at hc⟩ (fun hc => by simp at hc) hw
    refine ⟨?_, ?_⟩
    · intro o ho
      simp only [readAll, List.map_cons, List.mem_cons] at ho
      rcases ho with rfl | ho
      · rw [hr]
      · exact ih1 o ho
    · intro α f
      have := ih2 f
      simp only [delivered, readAll, List.map_cons, List.flatMap_cons, List.filterMap_append] at this ⊢
      rw [hr, this, expected_obs]

/-! ### C01: round trip of the current format -/

/-- C01.  Any sequence of records the writer may emit, put in a container of the
current version with any combination of transaction and origin information,
is read back: same header, same records in the same order, each with the
transaction, relation and replica identity declared last before it; all bytes
are consumed and no error is reported, whatever memory follows. -/
theorem C01_container_roundtrip (xi : Option (UInt64 × UInt32)) (oi : Option (UInt16 × UInt64))
    (rs : List Rec) (tail : Nat → UInt8) (hw : WritableSeq 19 replDefault rs) :
    let bytes := encContainer ⟨19, xi, oi⟩ rs
    let out := parseContainer (bufOf bytes tail)
    out.header = some ⟨19, xi, oi⟩ ∧ out.records.map (·.record) = rs ∧ out.status = .ok ∧
    out.final = bytes.length ∧
    ∀ (i : Nat) (d : Delivered), out.records[i]? = some d → d.ctx.Declared (rs.take (i + 1)) := by
  have hr := container_roundtrip ⟨19, xi, oi⟩ rs tail
    ⟨Or.inr ⟨by simp, by simp⟩, fun hc => by simp at hc⟩ (fun hc => by simp at hc) hw
  have hid : rs.map (Rec.asVersion 19) = rs := by
    rw [List.map_congr_left (fun r _ => asVersion_current r)]; simp
  simp only [hr]
  refine ⟨trivial, ?_, trivial, trivial, ?_⟩
  · rw [expected_records, hid]
  · intro i d hd
    have := declared_expected 19 rs _ {} [] ⟨rfl, rfl, rfl, rfl, rfl⟩ i d hd
    simpa [hid] using this

/-- A sequence with an UPDATE under REPLICA IDENTITY FULL (two tuples), a
REINSERT, a savepoint and a commit meets the hypothesis. -/
example : WritableSeq 19 replDefault
    [.xid 7 1 700, .relation 0 ⟨5, 6, 7⟩ (some ⟨1, 2, 3⟩) 1 2 1663, .relreplident replFull 0,
     .modify .update ⟨1, [1, 2, 3]⟩ (some ⟨0, [9]⟩), .savepoint 1 2 1,
     .modify .reinsert ⟨1, [1]⟩ (some ⟨0, []⟩), .modify .insert ⟨0, [4]⟩ none,
     .commit 7 8] := by
  simp [WritableSeq, Rec.Writable, identityAfter]

/-! ### C02: no byte outside the container matters -/

/-- C02 (non-empty containers).  For arbitrary, possibly corrupt, bytes: the
outcome of parsing does not depend on anything outside the container, parsing
terminates, and the cursor never passes the end. -/
theorem C02_parse_stays_inside_partial (b b' : Buf) (hne : 0 < b.fin) (hf : b'.fin = b.fin)
    (hm : ∀ i, i < b.fin → b'.mem i = b.mem i) :
    parseContainer b' = parseContainer b ∧ (parseContainer b).status ≠ .diverged ∧
    (parseContainer b).final ≤ b.fin := by
  have hm' : ∀ i, i < b.fin → b.mem i = b'.mem i := fun i hi => (hm i hi).symm
  have hh : readHeader b 0 = readHeader b' 0 ∧
      ∀ a p', readHeader b 0 = .ok a p' → p' ≤ b.fin := by
    unfold readHeader
    simp only [hm' 0 hne]
    split
    · have hl : Local (do
          let v ← readU16
          if 17 ≤ v.toNat then
            let f ← readU8
            return (v.toNat, f)
          else return (v.toNat, 0) : P (Nat × UInt8)) := by local_tac
      obtain ⟨h1, h2⟩ := hl b b' 0 hf.symm hm' (Nat.zero_le _)
      exact ⟨h1, fun a p' h => (h2 a p' h).2⟩
    · exact ⟨rfl, fun a p' h => by cases h; exact Nat.zero_le _⟩
  have hp : (do let (v, f) ← readHeader; readFlags v f : P Header) b 0 =
        (do let (v, f) ← readHeader; readFlags v f : P Header) b' 0 ∧
      ∀ a p', (do let (v, f) ← readHeader; readFlags v f : P Header) b 0 = .ok a p' →
        p' ≤ b.fin := by
    simp only [bind]
    rw [← hh.1]
    cases hr : readHeader b 0 with
    | eof => exact ⟨rfl, fun a p' h => by cases h⟩
    | ok a p1 =>
      have hl : Local (readFlags a.1 a.2) := by unfold readFlags; local_tac
      obtain ⟨h1, h2⟩ := hl b b' p1 hf.symm hm' (hh.2 _ _ hr)
      exact ⟨h1, fun a p' h => (h2 a p' h).2⟩
  unfold parseContainer
  rw [← hp.1]
  cases hr : (do let (v, f) ← readHeader; readFlags v f : P Header) b 0 with
  | eof => exact ⟨rfl, by simp, Nat.zero_le _⟩
  | ok h p =>
    obtain ⟨h1, h2, h3⟩ := recLoop_local h.version b b' hf.symm hm' (b.fin - p) {} p
      (hp.2 _ _ hr) (Nat.le_refl _)
    simp only
    rw [hf, ← h1]
    exact ⟨rfl, h2, h3⟩

/-- The hypotheses are met e.g. by a truncated container with different memory
behind it; the records before the cut are delivered and the rest is reported
as an error. -/
example : let b : Buf := ⟨fun i => ([19, 0, 0, 1, 7] : List UInt8).getD i 0, 5⟩
    let b' : Buf := ⟨fun i => ([19, 0, 0, 1, 7] : List UInt8).getD i 99, 5⟩
    0 < b.fin ∧ b'.fin = b.fin ∧ (∀ i, i < b.fin → b'.mem i = b.mem i) ∧ b'.mem 5 ≠ b.mem 5 ∧
    (parseContainer b).status = .eof := by
  decide

/-- C02 fails for an empty container: the byte behind it is read, so the outcome
depends on memory outside the container
(src/recovery/wal_reader.c:468 has no bounds check). -/
theorem C02_violated : ∃ b b' : Buf, b'.fin = b.fin ∧ (∀ i, i < b.fin → b'.mem i = b.mem i) ∧
    parseContainer b' ≠ parseContainer b := by
  refine ⟨⟨fun _ => 0, 0⟩, ⟨fun _ => 19, 0⟩, rfl, (fun i hi => by cases hi), ?_⟩
  decide

/-! ### C03: older formats -/

/-- C03.  Containers of every format version that ever existed (0: no header;
16 to 19) are understood by the current reader: all records arrive in order,
with the fields a version did not have set to their documented defaults, and
header information present exactly when the version can carry it. -/
theorem C03_old_versions (h : Header) (rs : List Rec) (tail : Nat → UInt8) (hv : h.Valid)
    (hs : StartsOld h.version rs) (hw : WritableSeq h.version replDefault rs) :
    let bytes := encContainer h rs
    let out := parseContainer (bufOf bytes tail)
    out.header = some h ∧ out.records.map (·.record) = rs.map (Rec.asVersion h.version) ∧
    out.status = .ok ∧ out.final = bytes.length ∧
    ∀ (i : Nat) (d : Delivered), out.records[i]? = some d →
      d.ctx.Declared ((rs.map (Rec.asVersion h.version)).take (i + 1)) := by
  have hr := container_roundtrip h rs tail hv hs hw
  simp only [hr]
  refine ⟨trivial, expected_records .., trivial, trivial, ?_⟩
  intro i d hd
  simpa using declared_expected h.version rs _ {} [] ⟨rfl, rfl, rfl, rfl, rfl⟩ i d hd

/-- A headerless container, and a version-16 one. -/
example : (⟨0, none, none⟩ : Header).Valid ∧ (⟨16, none, none⟩ : Header).Valid ∧
    StartsOld 0 [.xid 3 1 0, .relation 0 ⟨5, 6, 7⟩ none 0 0 0, .modify .delete ⟨0, [1]⟩ none,
      .rollback 1 2] ∧
    WritableSeq 0 replDefault [.xid 3 1 0, .relation 0 ⟨5, 6, 7⟩ none 0 0 0,
      .modify .delete ⟨0, [1]⟩ none, .rollback 1 2] := by
  refine ⟨⟨by simp [KnownVersion], by simp⟩, ⟨by simp [KnownVersion], by simp⟩, ?_, ?_⟩
  · exact fun _ => ⟨_, _, rfl, by decide⟩
  · simp [WritableSeq, Rec.Writable, identityAfter]

/-! ### C05: the buffer never overflows -/

/-- C05.  No sequence of legal operations ever writes past the end of the local
WAL buffer. -/
theorem C05_no_overflow (ops : List Op) (hl : Legal {} ops) :
    (Backend.run {} ops).lw.ovf = false ∧ (Backend.run {} ops).lw.buf.length ≤ 8192 :=
  fits_run (b := {}) ⟨rfl, Nat.zero_le _⟩ hl

/-- C05 for the record emitted by recovery when it finishes an aborted transaction. -/
theorem C05_recovery_rollback (s : LW) (e : Env) (ho : s.ovf = false) (hb : s.buf = []) :
    (s.recoveryFinishRollback e).ovf = false := by
  have h0 : Fits { s with hasXid := true } := ⟨ho, by simp [hb]⟩
  have h1 : Fits (s.addXid e) := h0.put (by
    rw [encRec_length, encLen]; simp [hb, bufSize])
  have hl : (s.addXid e).buf.length = 17 := by
    simp [LW.addXid, LW.put, hb, encRec_length, encLen]
  have h2 : Fits ((s.addXid e).put (.rollback e.runXmin e.csn)) := h1.put (by
    rw [encRec_length, encLen, hl]; simp [bufSize])
  exact h2.1

/-- A run used as example below: a transaction with changes to two trees and a
savepoint, an autonomous transaction inside it, then a second transaction. -/
def exampleRun : List Op :=
  let t : Desc := ⟨⟨5, 100, 100⟩, 1663, 1, ⟨5, 100, 100⟩, 1663⟩
  let i : Desc := ⟨⟨5, 200, 200⟩, 1663, 4, ⟨5, 100, 100⟩, 1663⟩
  [.modify { oxid := 7 } .insert t ⟨0, [1, 2, 3]⟩ none replDefault 1 1,
   .modify { oxid := 7 } .insert i ⟨0, [3, 1]⟩ none replDefault 1 1,
   .plain { oxid := 7 } (.savepoint 1 0),
   .startAuto { oxid := 7 },
   .modify { oxid := 8 } .delete t ⟨0, [1]⟩ none replDefault 1 1,
   .endAuto { oxid := 8 } true true,
   .modify { oxid := 7 } .update t ⟨0, [1, 2]⟩ (some ⟨0, [1, 2, 3]⟩) replFull 1 1,
   .commit { oxid := 7, remoteApply := true },
   .modify { oxid := 9 } .insert i ⟨0, [8]⟩ none replDefault 1 1,
   .rbToSp { oxid := 9 } 1,
   .rollback { oxid := 9 }]

example : Legal {} exampleRun ∧ NoEmptyFinish {} exampleRun := by
  constructor
  · simp [exampleRun, Legal, Ghost.ok, Ghost.step, tuplesOk, Ghost.owns, Ghost.identityOk,
      Desc.loggedAs, optLen]
  · simp [exampleRun, NoEmptyFinish, Ghost.step, Ghost.finishOk]

/-! ### C06: row changes are attributed to the right tree -/

/-- C06.  Reading the containers a backend emitted: every container parses
without error; every row change and bridge-index removal delivered is one that
was issued, in order, with the tree it was issued for, its action and its tuple
images; row changes arrive without gaps, and none is missing once the buffer has
been flushed. -/
theorem C06_changes (ops : List Op) (hl : Legal {} ops) (tail : Nat → UInt8) :
    let b := Backend.run {} ops
    let seen := (delivered tail b.lw.out).filterMap Delivered.change
    (∀ o ∈ readAll tail b.lw.out, o.status = .ok) ∧
    seen.Sublist (issuedChanges ops) ∧
    seen.filter (·.isRow) <+: (issuedChanges ops).filter (·.isRow) ∧
    (b.lw.buf = [] → seen.filter (·.isRow) = (issuedChanges ops).filter (·.isRow)) := by
  obtain ⟨g', cs, rs, hj, _⟩ := inv_run False ops {} {} [] [] [] (inv_init _) hl (fun h => h.elim)
  simp only [List.nil_append] at hj
  have h1 := readAll_of tail hj.hdr
  have h2 := h1.2 chgF
  have h3 : ∀ ds : List Delivered, ds.filterMap (fun d => chgF d.ctx d.record) =
      ds.filterMap Delivered.change := fun ds => rfl
  rw [h3] at h2
  simp only [hj.out, h2]
  have hr := hj.rwc
  rw [rowsC_append] at hr
  refine ⟨h1.1, (List.sublist_append_left _ _).trans hj.chg, ⟨_, hr⟩, ?_⟩
  intro hb
  have : rs = [] := J.nil_of_buf (by rw [← hj.buf, hb])
  subst this
  simpa [rowsC, obs] using hr

/-! ### C04: containers identify their transaction -/

/-- C04 in full: every transactional record a reader gets is one that was
issued, in order, attributed to the transaction that issued it. -/
def C04_claim : Prop := ∀ (ops : List Op) (tail : Nat → UInt8), Legal {} ops →
  ((delivered tail (Backend.run {} ops).lw.out).filterMap Delivered.event).Sublist
    (issuedEvents ops)

/-- C04 fails: after a transaction that logged only a savepoint commits, the
buffer is dropped but `contains_xid` stays set, and the next transaction's
insert is delivered without a transaction id. -/
theorem C04_violated : ¬ C04_claim := by
  intro h
  have := h [.plain { oxid := 5 } (.savepoint 1 0), .commit { oxid := 5 },
      .modify { oxid := 6 } .insert ⟨⟨5, 100, 100⟩, 1663, 1, ⟨5, 100, 100⟩, 1663⟩ ⟨0, [1]⟩ none
        replDefault 1 1,
      .commit { oxid := 6 }] (fun _ => 0) (by
    simp [Legal, Ghost.ok, Ghost.step, tuplesOk, Ghost.owns, Ghost.identityOk,
      Desc.loggedAs, optLen])
  revert this
  decide

/-- C04 for runs in which no transaction that logged something ends through
`wal_commit`/`wal_rollback` without a row change: every transactional record
delivered was issued, in that order, by the transaction it is attributed to, and
row changes are delivered with their transaction without gaps (completely, once
the buffer is flushed).  Missing: transactions that log savepoints or metadata
locks but no row change, for which the claim is false (`C04_violated`). -/
theorem C04_attribution_partial (ops : List Op) (hl : Legal {} ops) (hn : NoEmptyFinish {} ops)
    (tail : Nat → UInt8) :
    let b := Backend.run {} ops
    let seen := (delivered tail b.lw.out).filterMap Delivered.event
    seen.Sublist (issuedEvents ops) ∧
    seen.filter (·.2.isRow) <+: (issuedEvents ops).filter (·.2.isRow) ∧
    (b.lw.buf = [] → seen.filter (·.2.isRow) = (issuedEvents ops).filter (·.2.isRow)) := by
  obtain ⟨g', cs, rs, hj, _⟩ := inv_run True ops {} {} [] [] [] (inv_init _) hl (fun _ => hn)
  simp only [List.nil_append] at hj
  have h1 := readAll_of tail hj.hdr
  have h2 := h1.2 evF
  have h3 : ∀ ds : List Delivered, ds.filterMap (fun d => evF d.ctx d.record) =
      ds.filterMap Delivered.event := fun ds => rfl
  rw [h3] at h2
  simp only [hj.out, h2]
  have hr := hj.rw trivial
  rw [rows_append] at hr
  refine ⟨(List.sublist_append_left _ _).trans (hj.ev trivial), ?_, ?_⟩
  · exact ⟨_, hr⟩
  · intro hb
    have : rs = [] := J.nil_of_buf (by rw [← hj.buf, hb])
    subst this
    simpa [rows, obs] using hr

/-- C34.  The end of every transaction that issued row changes, and every row
change, reaches WAL, in order: once the buffer has been flushed, the events that
must be logged are a subsequence of the delivered row-change and end events.
Missing: the same runs as in `C04_attribution_partial`. -/
theorem C34_ends_logged_partial (ops : List Op) (hl : Legal {} ops) (hn : NoEmptyFinish {} ops)
    (tail : Nat → UInt8) (hb : (Backend.run {} ops).lw.buf = []) :
    (requiredEvents {} ops).Sublist
      (((delivered tail (Backend.run {} ops).lw.out).filterMap Delivered.event).filter
        fun e => e.2.isRow || e.2.isEnd) := by
  obtain ⟨g', cs, rs, hj, _⟩ := inv_run True ops {} {} [] [] [] (inv_init _) hl (fun _ => hn)
  simp only [List.nil_append] at hj
  have h2 := (readAll_of tail hj.hdr).2 evF
  have h3 : ∀ ds : List Delivered, ds.filterMap (fun d => evF d.ctx d.record) =
      ds.filterMap Delivered.event := fun ds => rfl
  rw [h3] at h2
  have : rs = [] := J.nil_of_buf (by rw [← hj.buf, hb])
  subst this
  have := hj.req trivial
  rw [hj.out, h2]
  simpa [keys, obs, Rec.key] using this

set_option maxRecDepth 20000 in
/-- The run above is a non-trivial case: three transactions, all rows arrive. -/
example : ((delivered (fun _ => 0) (Backend.run {} exampleRun).lw.out).filterMap
    Delivered.event).map (·.1) = [7, 7, 7, 8, 8, 7, 7, 9, 9, 9] ∧
    (Backend.run {} exampleRun).lw.buf = [] ∧
    (requiredEvents {} exampleRun).map (·.1) = [7, 7, 8, 8, 7, 7, 9, 9] := by
  decide

end Verif.Wal
