import Verif.Wal.RoundTrip
import Verif.Wal.StreamSpec
/-! Proof engineering for the backend's WAL stream. -/

namespace Verif.Wal

/-! ### Sizes and overflow -/

/-- Size of an encoded record of the current version. -/
def encLen : Rec → Nat
  | .xid .. => 17 | .commit .. => 17 | .rollback .. => 17 | .jointCommit .. => 22
  | .relation _ _ s _ _ _ => if s.isSome then 46 else 26
  | .relreplident .. => 6
  | .modify _ t1 none => 4 + t1.data.length
  | .modify _ t1 (some t2) => 7 + t1.data.length + t2.data.length
  | .metaLock => 1 | .metaUnlock .. => 17 | .savepoint .. => 13 | .rbToSp .. => 21
  | .truncate .. => 13 | .bridgeErase .. => 7 | .replayFeedback => 1 | .switchXid .. => 9
  | .dbCopy .. => 13 | .dbCreateCopy .. => 9 | .dbTemplateCheckpoint .. => 9
  | .cic .. => 25

theorem encRec_length (r : Rec) : (encRec 19 r).length = encLen r := by
  cases r with
  | relation t o s a b c => cases s <;> simp [encRec, encLen, encPayload, encOids]
  | modify k t1 t2 => cases t2 <;> simp [encRec, encLen, encPayload] <;> omega
  | _ => simp [encRec, encLen, encPayload, encOids]

/-- The buffer fits and never overflowed. -/
def Fits (s : LW) : Prop := s.ovf = false ∧ s.buf.length ≤ bufSize

theorem Fits.put {s : LW} {r : Rec} (h : Fits s)
    (hl : s.buf.length + (encRec 19 r).length ≤ bufSize) : Fits (s.put r) := by
  obtain ⟨h1, h2⟩ := h
  refine ⟨?_, by simpa [LW.put] using hl⟩
  simp only [LW.put, h1, Bool.false_or, decide_eq_false_iff_not]
  simp; omega

theorem Fits.flush {s : LW} (h : Fits s) (e b) : Fits (s.flush e b) := by
  exact ⟨h.1, Nat.zero_le _⟩

theorem Fits.flushNonEmpty {s : LW} (h : Fits s) (e) : Fits (s.flushNonEmpty e) := by
  unfold LW.flushNonEmpty; split
  · exact h
  · exact h.flush e false

theorem Fits.flushIfNeeded {s : LW} (h : Fits s) (e n) (hn : n + 17 ≤ bufSize) :
    Fits (s.flushIfNeeded e n) ∧
    (s.flushIfNeeded e n).buf.length + n + (s.flushIfNeeded e n).xidReserved ≤ bufSize := by
  unfold LW.flushIfNeeded
  split
  · refine ⟨⟨h.1, Nat.zero_le _⟩, ?_⟩
    simp [LW.reset, LW.xidReserved]; omega
  · exact ⟨h, by omega⟩

theorem Fits.addXidIfNeeded {s : LW} (h : Fits s) (e) (n)
    (hl : s.buf.length + n + s.xidReserved ≤ bufSize) :
    Fits (s.addXidIfNeeded e) ∧ (s.addXidIfNeeded e).buf.length + n ≤ bufSize ∧
    (s.addXidIfNeeded e).hasXid = true := by
  unfold LW.addXidIfNeeded
  split
  · rename_i hx; exact ⟨h, by omega, hx⟩
  · rename_i hx
    simp only [LW.xidReserved, hx] at hl
    have hl' : s.buf.length + n + 17 ≤ bufSize := by simpa using hl
    have hlen : (encRec 19 (.xid e.oxid e.lxid e.heapXid)).length = 17 := by
      rw [encRec_length, encLen]
    refine ⟨?_, ?_, rfl⟩
    · unfold LW.addXid
      apply Fits.put (by exact h)
      rw [hlen]; simp only; omega
    · simp only [LW.addXid, LW.put, List.length_append, hlen]; omega

theorem addXidIfNeeded_rel (s : LW) (e t) :
    (s.addXidIfNeeded e).relChanged t = s.relChanged t := by
  unfold LW.addXidIfNeeded; split <;> rfl

theorem fits_step {b : Backend} {g : Ghost} {op : Op} (h : Fits b.lw) (hok : g.ok op) :
    Fits (b.step op).lw := by
  have hbs : bufSize = 8192 := rfl
  have hcommit : ∀ (s : LW) e a, Fits s → Fits (s.commit e a) := by
    intro s e a h
    unfold LW.commit
    split
    · exact ⟨h.1, Nat.zero_le _⟩
    · obtain ⟨h1, h2⟩ := h.flushIfNeeded e (17 + if e.remoteApply then 1 else 0)
        (by split <;> omega)
      obtain ⟨h3, h4, _⟩ := h1.addXidIfNeeded e _ h2
      simp only
      suffices hs : Fits (((s.flushIfNeeded e (17 + if e.remoteApply then 1 else 0)).addXidIfNeeded
        e).addFinish e true) from ⟨hs.1, Nat.zero_le _⟩
      unfold LW.addFinish
      simp only [Bool.true_and, if_true]
      by_cases hr : e.remoteApply = true
      · simp only [hr, if_true] at h2 h3 h4 ⊢
        have h5 : Fits (((s.flushIfNeeded e (17 + 1)).addXidIfNeeded e).put .replayFeedback) := by
          apply h3.put; rw [encRec_length, encLen]; omega
        apply Fits.put h5
        rw [encRec_length, encLen]
        simp only [LW.put, List.length_append, encRec_length, encLen]; omega
      · simp only [hr] at h2 h3 h4 ⊢
        apply Fits.put h3
        rw [encRec_length, encLen]; simpa using h4
  have hrollback : ∀ (s : LW) e a, Fits s → Fits (s.rollback e a) := by
    intro s e a h
    unfold LW.rollback
    split
    · exact ⟨h.1, Nat.zero_le _⟩
    · obtain ⟨h1, h2⟩ := h.flushIfNeeded e 17 (by omega)
      obtain ⟨h3, h4, _⟩ := h1.addXidIfNeeded e _ h2
      simp only
      suffices hs : Fits (((s.flushIfNeeded e 17).addXidIfNeeded e).addFinish e false) from
        ⟨hs.1, Nat.zero_le _⟩
      unfold LW.addFinish
      simp only [Bool.false_and]
      apply Fits.put h3
      rw [if_neg (by decide), encRec_length, encLen]; simpa using h4
  cases op with
  | modify e k d t1 t2 rr ver bver =>
    simp only [Backend.step, LW.addModify]
    by_cases hrec : e.inRecovery = true
    · simpa [hrec] using h
    rcases hok with hok | ⟨⟨ht2, hlen, _⟩, _, _⟩
    · exact absurd hok hrec
    simp only [hrec, Bool.false_eq_true, if_false]
    generalize hreq0 : (if (k == .reinsert || (k == .update && rr == replFull)) = true
      then 7 + t1.data.length + optLen t2 else 4 + t1.data.length) = req0
    have hreq0' : req0 = (encRec 19 (.modify k t1 t2)).length := by
      rw [encRec_length, ← hreq0]
      cases t2 with
      | none =>
        have : ¬ ((k == .reinsert || (k == .update && rr == replFull)) = true) := by
          intro hc; have := ht2.mpr (by simpa using hc); simp at this
        simp only [this]; simp [encLen]
      | some t2 =>
        have : (k == .reinsert || (k == .update && rr == replFull)) = true := by
          simpa using ht2.mp rfl
        simp only [this, if_true, optLen, encLen]
    have hreqle : req0 ≤ 7 + 8116 := by
      rw [← hreq0]; split <;> omega
    generalize hreq1 : (if b.lw.relChanged d.target = true then req0 + 46 else req0) = req1
    generalize hreq2 : (if (rr != replDefault) = true then req1 + 6 else req1) = req2
    have hr2 : req2 + 17 ≤ bufSize := by
      rw [← hreq2, ← hreq1]; split <;> split <;> omega
    obtain ⟨h1, h2⟩ := h.flushIfNeeded e req2 hr2
    -- after the flush decision there is room for everything that will be written
    have hroom : ∃ n, (b.lw.flushIfNeeded e req2).buf.length + n +
          (b.lw.flushIfNeeded e req2).xidReserved ≤ bufSize ∧
        n = req0 + (if ((b.lw.flushIfNeeded e req2).relChanged d.target) = true then
          46 + (if (rr != replDefault) = true then 6 else 0) else 0) := by
      refine ⟨_, ?_, rfl⟩
      by_cases hfl : b.lw.buf.length + req2 + b.lw.xidReserved > bufSize
      · obtain ⟨hb1, hb2⟩ : (b.lw.flushIfNeeded e req2).buf = [] ∧
            (b.lw.flushIfNeeded e req2).hasXid = false := by
          unfold LW.flushIfNeeded; rw [if_pos hfl]; exact ⟨rfl, rfl⟩
        simp only [LW.xidReserved, hb1, hb2, List.length_nil, Bool.false_eq_true, if_false]
        split <;> (try split) <;> omega
      · have hnf : b.lw.flushIfNeeded e req2 = b.lw := by
          unfold LW.flushIfNeeded; rw [if_neg hfl]
        rw [hnf]
        have : req0 + (if b.lw.relChanged d.target = true then
            46 + (if (rr != replDefault) = true then 6 else 0) else 0) ≤ req2 := by
          rw [← hreq2, ← hreq1]; split <;> split <;> omega
        omega
    obtain ⟨n, hn1, hn2⟩ := hroom
    obtain ⟨h3, h4, _⟩ := h1.addXidIfNeeded e n hn1
    rw [← addXidIfNeeded_rel (e := e)] at hn2
    generalize ((b.lw.flushIfNeeded e req2).addXidIfNeeded e) = s3 at *
    by_cases hrc : s3.relChanged d.target = true
    · simp only [hrc, if_true] at hn2 ⊢
      have hrl : (encRec 19 (.relation d.target.2 d.target.1 (some ⟨e.runXmin, e.csn, e.cid⟩) ver
          bver d.targetSpc)).length = 46 := by rw [encRec_length]; rfl
      have h5 : Fits (s3.addRel e d.target d.targetSpc ver bver) := by
        unfold LW.addRel
        exact Fits.put h3 (by rw [hrl]; omega)
      have hb5 : (s3.addRel e d.target d.targetSpc ver bver).buf.length = s3.buf.length + 46 := by
        simp only [LW.addRel, LW.put, List.length_append, hrl]
      by_cases hrr : (rr != replDefault) = true
      · simp only [hrr, if_true] at hn2 ⊢
        have hrl2 : (encRec 19 (.relreplident rr 0)).length = 6 := by
          rw [encRec_length, encLen]
        have h6 : Fits ((s3.addRel e d.target d.targetSpc ver bver).put (.relreplident rr 0)) :=
          h5.put (by rw [hrl2]; omega)
        refine Fits.put h6 ?_
        simp only [LW.put, List.length_append, hrl2, hb5] at *
        rw [← hreq0']; omega
      · simp only [hrr, if_false, Bool.false_eq_true] at hn2 ⊢
        refine Fits.put h5 ?_
        rw [← hreq0', hb5]; omega
    · simp only [hrc, if_false, Bool.false_eq_true] at hn2 ⊢
      refine Fits.put h3 ?_
      rw [← hreq0']; omega
  | bridgeErase e d ho hi lo pos ver bver =>
    simp only [Backend.step, LW.addBridgeErase]
    by_cases hrec : e.inRecovery = true
    · simpa [hrec] using h
    simp only [hrec, Bool.false_eq_true, if_false]
    generalize hreq : (if b.lw.relChanged d.target = true then 7 + 46 else 7) = req
    have hr2 : req + 17 ≤ bufSize := by rw [← hreq]; split <;> omega
    obtain ⟨h1, h2⟩ := h.flushIfNeeded e req hr2
    have hroom : (b.lw.flushIfNeeded e req).buf.length +
          (7 + (if ((b.lw.flushIfNeeded e req).relChanged d.target) = true then 46 else 0)) +
          (b.lw.flushIfNeeded e req).xidReserved ≤ bufSize := by
      by_cases hfl : b.lw.buf.length + req + b.lw.xidReserved > bufSize
      · obtain ⟨hb1, hb2⟩ : (b.lw.flushIfNeeded e req).buf = [] ∧
            (b.lw.flushIfNeeded e req).hasXid = false := by
          unfold LW.flushIfNeeded; rw [if_pos hfl]; exact ⟨rfl, rfl⟩
        simp only [LW.xidReserved, hb1, hb2, List.length_nil, Bool.false_eq_true, if_false]
        split <;> omega
      · have hnf : b.lw.flushIfNeeded e req = b.lw := by
          unfold LW.flushIfNeeded; rw [if_neg hfl]
        rw [hnf] at h2 ⊢
        have : 7 + (if b.lw.relChanged d.target = true then 46 else 0) ≤ req := by
          rw [← hreq]; split <;> omega
        omega
    obtain ⟨s3, h3, h4, h5⟩ : ∃ s3, s3 = (if ho = true then
        (b.lw.flushIfNeeded e req).addXidIfNeeded e else b.lw.flushIfNeeded e req) ∧ Fits s3 ∧
        s3.buf.length + (7 + (if (s3.relChanged d.target) = true then 46 else 0)) ≤ bufSize := by
      refine ⟨_, rfl, ?_⟩
      split
      · obtain ⟨h3, h4, _⟩ := h1.addXidIfNeeded e _ hroom
        rw [addXidIfNeeded_rel]
        exact ⟨h3, h4⟩
      · exact ⟨h1, by omega⟩
    rw [← h3]
    have hbl : (encRec 19 (.bridgeErase hi lo pos)).length = 7 := by
      rw [encRec_length, encLen]
    by_cases hrc : s3.relChanged d.target = true
    · simp only [hrc, if_true] at h5 ⊢
      have hrl : (encRec 19 (.relation d.target.2 d.target.1 (some ⟨e.runXmin, e.csn, e.cid⟩) ver
          bver d.targetSpc)).length = 46 := by rw [encRec_length]; rfl
      have h6 : Fits (s3.addRel e d.target d.targetSpc ver bver) := by
        unfold LW.addRel
        exact Fits.put h4 (by rw [hrl]; omega)
      refine Fits.put h6 ?_
      simp only [LW.addRel, LW.put, List.length_append, hrl, hbl]; omega
    · simp only [hrc, if_false, Bool.false_eq_true] at h5 ⊢
      refine Fits.put h4 ?_
      rw [hbl]; omega
  | plain e p =>
    have hsz : (encRec 19 (p.record e)).length = p.size := by
      rw [encRec_length]; cases p <;> rfl
    have hp : p.size ≤ 17 := by cases p <;> simp [Plain.size]
    obtain ⟨h1, h2⟩ := h.flushIfNeeded e p.size (by omega)
    obtain ⟨h3, h4, _⟩ := h1.addXidIfNeeded e _ h2
    exact h3.put (by rw [hsz]; exact h4)
  | cic e ph o tr tn ver =>
    obtain ⟨h1, h2⟩ := h.flushIfNeeded e 25 (by omega)
    obtain ⟨h3, h4, _⟩ := h1.addXidIfNeeded e _ h2
    exact Fits.put h3 (by rw [encRec_length, encLen]; exact h4)
  | switchXid e t s =>
    simp only [Backend.step, LW.addSwitch]
    split
    · exact h
    · have h0 : Fits { b.lw with hasSwitch := true } := h
      obtain ⟨h1, h2⟩ := h0.flushIfNeeded e 9 (by omega)
      refine Fits.put h1 ?_
      rw [encRec_length, encLen]
      exact Nat.le_trans (Nat.le_add_right _ _) h2
  | rbToSp e p =>
    simp only [Backend.step, LW.addRbToSp]
    have h0 : Fits { b.lw with hasXid := false } := h
    obtain ⟨h1, h2⟩ := h0.flushIfNeeded e 21 (by omega)
    obtain ⟨h3, h4, _⟩ := h1.addXidIfNeeded e _ h2
    have h5 := h3.put (r := .rbToSp p e.runXmin e.csn) (by
      rw [encRec_length, encLen]; exact h4)
    exact ⟨h5.1, Nat.zero_le _⟩
  | commit e => exact hcommit _ e false h
  | rollback e => exact hrollback _ e false h
  | jointCommit e x sub =>
    simp only [Backend.step, LW.jointCommit]
    obtain ⟨h1, h2⟩ := h.flushIfNeeded e 22 (by omega)
    obtain ⟨h3, h4, _⟩ := h1.addXidIfNeeded e _ h2
    obtain ⟨h5, h6⟩ := h3.flushIfNeeded e 22 (by omega)
    obtain ⟨h7, h8, _⟩ := h5.addXidIfNeeded e _ h6
    have h9 := h7.put (r := .jointCommit x e.runXmin e.csn sub) (by
      rw [encRec_length, encLen]; exact h8)
    exact ⟨h9.1, Nat.zero_le _⟩
  | flush e => exact h.flushNonEmpty e
  | startAuto e => exact h.flushNonEmpty e
  | endAuto e ho c =>
    simp only [Backend.step]
    have : Fits (if ho = true then (if c = true then b.lw.commit e true else b.lw.rollback e true)
        else b.lw) := by
      split
      · split
        · exact hcommit _ e true h
        · exact hrollback _ e true h
      · exact h
    split
    · exact this
    · exact this

theorem fits_run {ops : List Op} : ∀ {b : Backend} {g : Ghost}, Fits b.lw → Legal g ops →
    Fits (b.run ops).lw := by
  induction ops with
  | nil => intro b g h _; exact h
  | cons op ops ih => intro b g h hl; exact ih (fits_step h hl.1) hl.2

end Verif.Wal
