import Verif.Wal.Spec
import Verif.Wal.Lemmas
/-! Round-trip lemmas for single records, record lists and headers. -/

namespace Verif.Wal

seal Parses u8 u16 u32 u64 readU8 readU16 readU32 readU64 readOids encOids

/-- Closes `Parses` goals built from scalar reads. -/
macro "parses_tac" : tactic => `(tactic| repeat' first
  | exact (parses_u8 _).bind_pure | exact (parses_u16 _).bind_pure
  | exact (parses_u32 _).bind_pure | exact (parses_u64 _).bind_pure
  | exact (parses_oids _).bind_pure
  | refine Parses.bind (parses_u8 _) ?_ | refine Parses.bind (parses_u16 _) ?_
  | refine Parses.bind (parses_u32 _) ?_ | refine Parses.bind (parses_u64 _) ?_
  | refine Parses.bind (parses_oids _) ?_
  | exact Parses.pure _)

theorem parses_sized (d : List UInt8) (h : d.length ≤ 65535) :
    Parses (readBytes (UInt16.ofNat d.length).toNat) d d := by
  have : (UInt16.ofNat d.length).toNat = d.length := by
    simp; omega
  rw [this]; exact parses_bytes d

theorem parses_finish (x c : UInt64) : Parses parseFinish (u64 x ++ u64 c) (x, c) := by
  unfold parseFinish; parses_tac

theorem parses_dbCreate (x c : UInt32) : Parses parseDbCreateCopy (u32 x ++ u32 c) (x, c) := by
  unfold parseDbCreateCopy; parses_tac

theorem identityAfter_ctx (c : Ctx) (v : Nat) (r : Rec) :
    (c.after (r.asVersion v)).relreplident = identityAfter c.relreplident r := by
  cases r <;> rfl

theorem parses_rec {v : Nat} {rr : UInt8} {r : Rec} (h : r.Writable v rr) :
    ∃ q, recParser v rr r.tag = some q ∧ Parses q (encPayload v r) (r.asVersion v) := by
  cases r with
  | xid o l hx =>
    refine ⟨_, rfl, ?_⟩
    simp only [encPayload, Rec.asVersion, parseXid, List.append_assoc]
    by_cases h17 : 17 ≤ v
    · simp only [h17, if_true, show ¬ v < 17 by omega, if_false]; parses_tac
    · simp only [h17, if_false, show v < 17 by omega, if_true]; parses_tac
  | commit x c =>
    refine ⟨_, rfl, ?_⟩
    simp only [encPayload, Rec.asVersion]
    exact Parses.bind_pure (f := fun p => Rec.commit p.1 p.2) (a := (x, c))
      (parses_finish x c)
  | rollback x c =>
    refine ⟨_, rfl, ?_⟩
    simp only [encPayload, Rec.asVersion]
    exact Parses.bind_pure (f := fun p => Rec.rollback p.1 p.2) (a := (x, c))
      (parses_finish x c)
  | jointCommit x m c s =>
    refine ⟨_, rfl, ?_⟩
    simp only [encPayload, Rec.asVersion, parseJointCommit, List.append_assoc]
    by_cases h19 : 19 ≤ v
    · simp only [h19, if_true, show ¬ v < 19 by omega, if_false]
      refine Parses.bind (parses_u32 _) <| Parses.bind (parses_u64 _) <|
        Parses.bind (parses_u64 _) ?_
      have := Parses.bind_pure (f := fun s => Rec.jointCommit x m c (s != 0))
        (parses_u8 (if s then 1 else 0))
      cases s <;> exact this
    · simp only [h19, if_false, show v < 19 by omega, if_true]; parses_tac
  | relation t o s ver bver sp =>
    refine ⟨_, rfl, ?_⟩
    simp only [encPayload, Rec.asVersion, parseRelation, List.append_assoc]
    refine Parses.bind (parses_u8 _) <| Parses.bind (parses_oids _) ?_
    have tailp : ∀ (s' : Option Snap) (v1 v2 : UInt32),
        Parses (if 18 ≤ v then do let sp ← readU32; return .relation t o s' v1 v2 sp
          else return .relation t o s' v1 v2 defaultTablespace : P Rec)
          (if 18 ≤ v then u32 sp else [])
          (.relation t o s' v1 v2 (if v < 18 then defaultTablespace else sp)) := by
      intro s' v1 v2
      by_cases h18 : 18 ≤ v
      · simp only [h18, if_true, show ¬ v < 18 by omega, if_false]; parses_tac
      · simp only [h18, if_false, show v < 18 by omega, if_true]; parses_tac
    by_cases h17 : 17 ≤ v
    · simp only [h17, if_true, show ¬ v < 17 by omega, if_false]
      rcases h with h | h
      · omega
      · obtain ⟨s, rfl⟩ := Option.isSome_iff_exists.mp h
        have hd : Parses (do
            let xmin ← readU64
            let csn ← readU64
            let cid ← readU32
            let ver ← readU32
            let bver ← readU32
            return (some ⟨xmin, csn, cid⟩, ver, bver) : P (Option Snap × UInt32 × UInt32))
            ((u64 s.xmin ++ u64 s.csn ++ u32 s.cid) ++ u32 ver ++ u32 bver)
            (some s, ver, bver) := by
          simp only [List.append_assoc]; parses_tac
        simpa only [List.append_assoc] using Parses.bind hd (tailp (some s) ver bver)
    · simp only [h17, if_false, show v < 17 by omega, if_true]
      exact Parses.bind (Parses.pure (none, invalidVersion, invalidVersion)) (tailp _ _ _)
  | relreplident c ix =>
    refine ⟨_, rfl, ?_⟩
    simp only [encPayload, Rec.asVersion, parseRelreplident]; parses_tac
  | modify k t1 t2 =>
    obtain ⟨h1, h2, h3⟩ := h
    have hp : Parses (parseModify k rr) (encPayload v (.modify k t1 t2)) (.modify k t1 t2) := by
      cases t2 with
      | none =>
        have hr : readTwo k rr = false := by
          have h3 : ¬ (k = .reinsert ∨ (k = .update ∧ rr = replFull)) := fun h => by
            simpa using h3.mpr h
          cases hb : readTwo k rr with
          | false => rfl
          | true =>
            exfalso; apply h3
            simpa [readTwo] using hb
        simp only [parseModify, hr, encPayload, List.append_assoc, Bool.false_eq_true, if_false]
        refine Parses.bind (parses_u8 _) <| Parses.bind (parses_u16 _) ?_
        exact (parses_sized _ h1).bind_pure
      | some t2 =>
        have hr : readTwo k rr = true := by
          have := h3.mp rfl
          simpa [readTwo] using this
        simp only [parseModify, hr, encPayload, List.append_assoc, if_true]
        refine Parses.bind (parses_u8 _) <| Parses.bind (parses_u8 _) <|
          Parses.bind (parses_u16 _) <| Parses.bind (parses_u16 _) ?_
        exact Parses.bind (parses_sized _ h1) (parses_sized _ (h2 t2 rfl)).bind_pure
    cases k <;> exact ⟨_, rfl, hp⟩
  | metaLock => exact ⟨_, rfl, Parses.pure _⟩
  | metaUnlock o old =>
    refine ⟨_, rfl, ?_⟩
    simp only [encPayload, Rec.asVersion, parseMetaUnlock, List.append_assoc]; parses_tac
  | savepoint p l pl =>
    refine ⟨_, rfl, ?_⟩
    simp only [encPayload, Rec.asVersion, parseSavepoint, List.append_assoc]; parses_tac
  | rbToSp p x c =>
    refine ⟨_, rfl, ?_⟩
    simp only [encPayload, Rec.asVersion, parseRbToSp]
    by_cases h17 : 17 ≤ v
    · simp only [h17, if_true, show ¬ v < 17 by omega, if_false]; parses_tac
    · simp only [h17, if_false, show v < 17 by omega, if_true]; parses_tac
  | truncate o =>
    refine ⟨_, rfl, ?_⟩
    simp only [encPayload, Rec.asVersion, parseTruncate]; parses_tac
  | bridgeErase hi lo p =>
    refine ⟨_, rfl, ?_⟩
    simp only [encPayload, Rec.asVersion, parseBridgeErase, List.append_assoc]; parses_tac
  | replayFeedback => exact ⟨_, rfl, Parses.pure _⟩
  | switchXid t s =>
    refine ⟨_, rfl, ?_⟩
    simp only [encPayload, Rec.asVersion, parseSwitchXid]; parses_tac
  | dbCopy d s t =>
    refine ⟨_, rfl, ?_⟩
    simp only [encPayload, Rec.asVersion, parseDbCopy, List.append_assoc]; parses_tac
  | dbCreateCopy s d =>
    refine ⟨_, rfl, ?_⟩
    simp only [encPayload, Rec.asVersion]
    exact Parses.bind_pure (f := fun p => Rec.dbCreateCopy p.1 p.2) (a := (s, d))
      (parses_dbCreate s d)
  | dbTemplateCheckpoint s d =>
    refine ⟨_, rfl, ?_⟩
    simp only [encPayload, Rec.asVersion]
    exact Parses.bind_pure (f := fun p => Rec.dbTemplateCheckpoint p.1 p.2) (a := (s, d))
      (parses_dbCreate s d)
  | cic ph o tr tn ver =>
    have hp : Parses (parseCic ph) (encPayload v (.cic ph o tr tn ver)) (.cic ph o tr tn ver) := by
      simp only [encPayload, parseCic, List.append_assoc]; parses_tac
    cases ph <;> exact ⟨_, rfl, hp⟩

unseal Parses u8

theorem recLoop_roundtrip (v : Nat) (b : Buf) :
    ∀ (rs : List Rec) (c : Ctx) (p fuel : Nat),
      WritableSeq v c.relreplident rs → At b p (encRecs v rs) →
      p + (encRecs v rs).length = b.fin → b.fin - p ≤ fuel →
      recLoop v b fuel c p = (expected v p c rs, .ok, b.fin) := by
  intro rs
  induction rs with
  | nil =>
    intro c p fuel _ _ he hf
    simp [encRecs] at he
    cases fuel <;> simp [recLoop, expected, he]
  | cons r rs ih =>
    intro c p fuel hw hat he hf
    obtain ⟨hw1, hw2⟩ := hw
    simp only [encRecs, encRec] at hat he
    obtain ⟨q, hq, hqp⟩ := parses_rec hw1
    have hlen : p + (1 + (encPayload v r).length + (encRecs v rs).length) = b.fin := by
      simp at he; omega
    obtain ⟨fuel, rfl⟩ : ∃ n, fuel = n + 1 := ⟨fuel - 1, by omega⟩
    have hat' : At b p (u8 r.tag ++ (encPayload v r ++ encRecs v rs)) := hat
    have h1 := parses_u8 r.tag b p hat'.left
    have h2 := hqp b _ hat'.right.left
    have h3 := ih (c.after (r.asVersion v)) (p + 1 + (encPayload v r).length) fuel
      (by rw [identityAfter_ctx]; exact hw2) hat'.right.right (by omega) (by omega)
    simp only [u8_length] at h1 h2
    unfold recLoop
    rw [if_pos (by omega), h1]
    simp only [hq, h2, h3, expected, encRec, List.length_cons]
    rw [show p + ((encPayload v r).length + 1) = p + 1 + (encPayload v r).length by omega]

theorem parses_flags (h : Header) :
    Parses (readFlags h.version h.flags) (encFlags h) h := by
  obtain ⟨v, xi, oi⟩ := h
  have px : ∀ t x, Parses (do
      let t ← readU64
      let x ← readU32
      return some (t, x) : P (Option (UInt64 × UInt32))) (u64 t ++ u32 x) (some (t, x)) := by
    intro t x; parses_tac
  have po : ∀ i l, Parses (do
      let i ← readU16
      let l ← readU64
      return some (i, l) : P (Option (UInt16 × UInt64))) (u16 i ++ u64 l) (some (i, l)) := by
    intro i l; parses_tac
  rcases xi with _ | ⟨t, x⟩ <;> rcases oi with _ | ⟨i, l⟩
  · rw [show Header.flags ⟨v, none, none⟩ = 0 from rfl, readFlags,
      if_neg (by decide), if_neg (by decide)]
    exact Parses.bind (Parses.pure none) (Parses.bind_pure (Parses.pure none))
  · rw [show Header.flags ⟨v, none, some (i, l)⟩ = 2 from rfl, readFlags,
      if_neg (by decide), if_pos (by decide)]
    exact Parses.bind (Parses.pure none) (Parses.bind_pure (po i l))
  · rw [show Header.flags ⟨v, some (t, x), none⟩ = 1 from rfl, readFlags,
      if_pos (by decide), if_neg (by decide)]
    exact Parses.bind (px t x) (Parses.bind_pure (Parses.pure none))
  · rw [show Header.flags ⟨v, some (t, x), some (i, l)⟩ = 3 from rfl, readFlags,
      if_pos (by decide), if_pos (by decide)]
    exact Parses.bind (px t x) (Parses.bind_pure (po i l))

theorem header_roundtrip (h : Header) (rs : List Rec) (b : Buf)
    (hat : At b 0 (encContainer h rs)) (hv : h.Valid) (hs : StartsOld h.version rs) :
    (do let (v, f) ← readHeader; readFlags v f : P Header) b 0 = .ok h (encHeader h).length := by
  obtain ⟨hk, ho⟩ := hv
  obtain ⟨v, xi, oi⟩ := h
  simp only at hk ho hs
  rcases hk with rfl | ⟨h16, h19⟩
  · obtain ⟨rfl, rfl⟩ := ho (by omega)
    obtain ⟨r, rs', rfl, ht⟩ := hs rfl
    have hm : b.mem 0 = r.tag := by
      have := hat.2 0 (by simp [encContainer, encHeader, encRecs, encRec])
      simpa [encContainer, encHeader, encRecs, encRec] using this
    simp only [bind, readHeader, hm]
    rw [if_neg (by omega)]
    simp [readFlags, bind, pure, encHeader]
  · have hvn : (UInt16.ofNat v).toNat = v := by simp; omega
    have hb0 : b.mem 0 = UInt8.ofNat v := by
      have := hat.2 0 (by simp [encContainer, encHeader, h16]; omega)
      simp only [Nat.zero_add] at this
      rw [this]
      simp only [encContainer, encHeader, h16, if_true, u16, leBytes, List.cons_append,
        List.getElem_cons_zero, hvn]
    by_cases h17 : 17 ≤ v
    · have hp : Parses (do
          let v ← readU16
          if 17 ≤ v.toNat then
            let f ← readU8
            return (v.toNat, f)
          else return (v.toNat, 0) : P (Nat × UInt8))
          (u16 (UInt16.ofNat v) ++ u8 (Header.flags ⟨v, xi, oi⟩)) (v, Header.flags ⟨v, xi, oi⟩) := by
        refine Parses.bind (parses_u16 _) ?_
        rw [hvn, if_pos h17]; parses_tac
      have he : encHeader ⟨v, xi, oi⟩ = (u16 (UInt16.ofNat v) ++ u8 (Header.flags ⟨v, xi, oi⟩)) ++
          encFlags ⟨v, xi, oi⟩ := by
        simp only [encHeader, h16, h17, if_true, List.append_assoc]
      rw [encContainer, he, List.append_assoc] at hat
      have h1 := hp _ _ hat.left
      have h2 := parses_flags ⟨v, xi, oi⟩ _ _ hat.right.left
      have h1' : readHeader b 0 = .ok (v, Header.flags ⟨v, xi, oi⟩) 3 := by
        unfold readHeader
        simp only [hb0]
        rw [if_pos (by simp; omega)]
        simpa using h1
      simp only [bind, h1']
      simpa [he, ← Nat.add_assoc] using h2
    · have hv16 : v = 16 := by omega
      subst hv16
      obtain ⟨rfl, rfl⟩ := ho (by omega)
      have hp : Parses (do
          let v ← readU16
          if 17 ≤ v.toNat then
            let f ← readU8
            return (v.toNat, f)
          else return (v.toNat, 0) : P (Nat × UInt8))
          (u16 (UInt16.ofNat 16)) (16, 0) := by
        have := Parses.bind (f := fun v : UInt16 => (if 17 ≤ v.toNat then do
            let f ← readU8
            return (v.toNat, f)
          else return (v.toNat, 0) : P (Nat × UInt8))) (bs' := []) (c := (16, 0))
          (parses_u16 16) (by exact Parses.pure _)
        simpa using this
      have he : encHeader ⟨16, none, none⟩ = u16 (UInt16.ofNat 16) := by
        simp [encHeader]
      rw [encContainer, he] at hat
      have h1 := hp _ _ hat.left
      have h1' : readHeader b 0 = .ok (16, 0) 2 := by
        unfold readHeader
        simp only [hb0]
        rw [if_pos (by decide)]
        simpa using h1
      simp only [bind, h1', he]
      simp [readFlags, bind, pure]

theorem container_roundtrip (h : Header) (rs : List Rec) (tail) (hv : h.Valid)
    (hs : StartsOld h.version rs) (hw : WritableSeq h.version replDefault rs) :
    parseContainer (bufOf (encContainer h rs) tail) =
      ⟨some h, expected h.version (encHeader h).length {} rs, .ok, (encContainer h rs).length⟩ := by
  have hat := at_bufOf (encContainer h rs) tail
  have hfin : (bufOf (encContainer h rs) tail).fin = (encContainer h rs).length := rfl
  generalize bufOf (encContainer h rs) tail = b at hat hfin
  unfold parseContainer
  rw [header_roundtrip h rs b hat hv hs]
  simp only
  have hr : At b (0 + _) _ := At.right (ys := encRecs h.version rs) hat
  simp only [Nat.zero_add] at hr
  rw [recLoop_roundtrip h.version b rs {} (encHeader h).length _ hw hr
    (by rw [hfin]; simp [encContainer]) (Nat.le_refl _), hfin]

theorem expected_records (v off : Nat) (c : Ctx) (rs : List Rec) :
    (expected v off c rs).map (·.record) = rs.map (Rec.asVersion v) := by
  induction rs generalizing off c with
  | nil => rfl
  | cons r rs ih => simp [expected, ih]

theorem asVersion_current (r : Rec) : r.asVersion 19 = r := by cases r <;> rfl

end Verif.Wal
