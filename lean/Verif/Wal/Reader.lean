import Verif.Wal.Record
/-!
# The container parser, `src/recovery/wal_reader.c`
-/

namespace Verif.Wal

/-- The part of `WalRecord` that survives from one record to the next
(`memset` once, src/recovery/wal_reader.c:600-602; fields assigned by the XID,
RELATION, SAVEPOINT, CIC and RELREPLIDENT parsers).
include/recovery/wal_reader.h:34-52.  `treeType` is the index type the consumer
remembers from the last RELATION record (src/recovery/logical.c:978,
src/recovery/recovery.c:4803). -/
structure Ctx where
  oxid : UInt64 := 0
  logicalXid : UInt32 := 0
  heapXid : UInt32 := 0
  oids : Oids := ⟨0, 0, 0⟩
  spcoid : UInt32 := 0
  treeType : UInt8 := 0
  relreplident : UInt8 := replDefault
  deriving Repr, DecidableEq

/-- `wal_parse_rec_modify`'s `read_two_tuples`, src/recovery/wal_reader.c:325. -/
def readTwo (k : ModKind) (relrep : UInt8) : Bool :=
  k == .reinsert || (k == .update && relrep == replFull)

/-- Three oids in a row. src/recovery/wal_reader.c:140-142, 259-261, 290-292. -/
def readOids : P Oids := do
  let d ← readU32
  let r ← readU32
  let n ← readU32
  return ⟨d, r, n⟩

/-- `wal_parse_rec_xid`, src/recovery/wal_reader.c:70-87. -/
def parseXid (v : Nat) : P Rec := do
  let o ← readU64
  let l ← readU32
  if 17 ≤ v then
    let h ← readU32
    return .xid o l h
  else
    return .xid o l 0

/-- `wal_parse_rec_finish`, src/recovery/wal_reader.c:90-100 (xmin and csn). -/
def parseFinish : P (UInt64 × UInt64) := do
  let x ← readU64
  let c ← readU64
  return (x, c)

/-- `wal_parse_rec_joint_commit`, src/recovery/wal_reader.c:103-130. -/
def parseJointCommit (v : Nat) : P Rec := do
  let x ← readU32
  let m ← readU64
  let c ← readU64
  if 19 ≤ v then
    let s ← readU8
    return .jointCommit x m c (s != 0)
  else
    return .jointCommit x m c false

/-- `wal_parse_rec_relation`, src/recovery/wal_reader.c:133-178. -/
def parseRelation (v : Nat) : P Rec := do
  let t ← readU8
  let o ← readOids
  let (s, ver, bver) ← (if 17 ≤ v then do
      let xmin ← readU64
      let csn ← readU64
      let cid ← readU32
      let ver ← readU32
      let bver ← readU32
      return (some ⟨xmin, csn, cid⟩, ver, bver)
    else
      return (none, invalidVersion, invalidVersion) : P (Option Snap × UInt32 × UInt32))
  if 18 ≤ v then
    let sp ← readU32
    return .relation t o s ver bver sp
  else
    return .relation t o s ver bver defaultTablespace

/-- `wal_parse_rec_relreplident`, src/recovery/wal_reader.c:181-200 (the
asserts are not compiled in release builds and are not modelled). -/
def parseRelreplident : P Rec := do
  let c ← readU8
  let ix ← readU32
  return .relreplident c ix

/-- `wal_parse_rec_o_tables_meta_unlock`, src/recovery/wal_reader.c:203-215. -/
def parseMetaUnlock : P Rec := do
  let d ← readU32
  let r ← readU32
  let old ← readU32
  let n ← readU32
  return .metaUnlock ⟨d, r, n⟩ old

/-- `wal_parse_rec_savepoint`, src/recovery/wal_reader.c:218-229. -/
def parseSavepoint : P Rec := do
  let p ← readU32
  let l ← readU32
  let pl ← readU32
  return .savepoint p l pl

/-- `wal_parse_rec_rollback_to_savepoint`, src/recovery/wal_reader.c:232-250. -/
def parseRbToSp (v : Nat) : P Rec := do
  let p ← readU32
  if 17 ≤ v then
    let x ← readU64
    let c ← readU64
    return .rbToSp p x c
  else
    return .rbToSp p invalidOXid 0

/-- `wal_parse_rec_truncate`, src/recovery/wal_reader.c:253-264. -/
def parseTruncate : P Rec := do
  let o ← readOids
  return .truncate o

/-- `wal_parse_rec_bridge_erase`, src/recovery/wal_reader.c:267-276
(`ItemPointerData` is three `uint16`s). -/
def parseBridgeErase : P Rec := do
  let h ← readU16
  let l ← readU16
  let p ← readU16
  return .bridgeErase h l p

/-- `wal_parse_rec_cic_phase`, src/recovery/wal_reader.c:284-300. -/
def parseCic (ph : CicPhase) : P Rec := do
  let o ← readOids
  let tr ← readU32
  let tn ← readU32
  let ver ← readU32
  return .cic ph o tr tn ver

/-- `wal_parse_rec_switch_logical_xid`, src/recovery/wal_reader.c:303-313. -/
def parseSwitchXid : P Rec := do
  let t ← readU32
  let s ← readU32
  return .switchXid t s

/-- `wal_parse_rec_modify`, src/recovery/wal_reader.c:319-357.  The parser only
records a pointer to the tuple bytes; the model returns the bytes, which is
what `build_fixed_tuples` (src/recovery/wal_reader.c:386-437) later copies. -/
def parseModify (k : ModKind) (relrep : UInt8) : P Rec := do
  if readTwo k relrep then
    let f1 ← readU8
    let f2 ← readU8
    let l1 ← readU16
    let l2 ← readU16
    let d1 ← readBytes l1.toNat
    let d2 ← readBytes l2.toNat
    return .modify k ⟨f1, d1⟩ (some ⟨f2, d2⟩)
  else
    let f1 ← readU8
    let l1 ← readU16
    let d1 ← readBytes l1.toNat
    return .modify k ⟨f1, d1⟩ none

/-- `wal_parse_rec_dbcopy`, src/recovery/wal_reader.c:360-371. -/
def parseDbCopy : P Rec := do
  let d ← readU32
  let s ← readU32
  let t ← readU32
  return .dbCopy d s t

/-- `wal_parse_rec_dbcreate_copy`, src/recovery/wal_reader.c:374-384. -/
def parseDbCreateCopy : P (UInt32 × UInt32) := do
  let s ← readU32
  let d ← readU32
  return (s, d)

/-- The `switch` over record tags, src/recovery/wal_reader.c:683-704 with the
table of include/recovery/wal_record.h:42-66; `none` is the `default:` branch
(`WALPARSE_BAD_TYPE`). -/
def recParser (v : Nat) (relrep : UInt8) (tag : UInt8) : Option (P Rec) :=
  match tag.toNat with
  | 1 => some (parseXid v)
  | 2 => some (do let (x, c) ← parseFinish; return .commit x c)
  | 3 => some (do let (x, c) ← parseFinish; return .rollback x c)
  | 4 => some (parseRelation v)
  | 5 => some (parseModify .insert relrep)
  | 6 => some (parseModify .update relrep)
  | 7 => some (parseModify .delete relrep)
  | 8 => some (pure .metaLock)
  | 9 => some parseMetaUnlock
  | 10 => some parseSavepoint
  | 11 => some (parseRbToSp v)
  | 12 => some (parseJointCommit v)
  | 13 => some parseTruncate
  | 14 => some parseBridgeErase
  | 15 => some (parseModify .reinsert relrep)
  | 16 => some (pure .replayFeedback)
  | 17 => some parseSwitchXid
  | 18 => some parseRelreplident
  | 19 => some parseDbCopy
  | 20 => some (do let (s, d) ← parseDbCreateCopy; return .dbCreateCopy s d)
  | 21 => some (do let (s, d) ← parseDbCreateCopy; return .dbTemplateCheckpoint s d)
  | 22 => some (parseCic .writersDirect)
  | 23 => some (parseCic .drainBarrier)
  | 24 => some (parseCic .indexValid)
  | _ => none

/-- Effect of a record on the persistent fields of `WalRecord`: assignments in
the parsers (src/recovery/wal_reader.c:76-84, 140-142, 169-175, 190, 225,
290-292) plus the reset of the replica identity that every replaying consumer
performs when it gets a RELATION record (src/recovery/recovery.c:4805,
src/recovery/logical.c:979).  `wal_desc_on_record` (src/orioledb.c:302, IS_DEV
builds only) does not perform that reset and is not modelled. -/
def Ctx.after (c : Ctx) : Rec → Ctx
  | .xid o l h => { c with oxid := o, logicalXid := l, heapXid := h }
  | .relation t o _ _ _ sp =>
      { c with oids := o, spcoid := sp, treeType := t, relreplident := replDefault }
  | .relreplident r _ => { c with relreplident := r }
  | .savepoint _ l _ => { c with logicalXid := l }
  | .cic _ o _ _ _ => { c with oids := o }
  | _ => c

/-- A record as delivered to `on_record`: its offset from the container start
(`rec.offset`), the persistent fields at delivery, and the record.
src/recovery/wal_reader.c:651-717. -/
structure Delivered where
  offset : Nat
  ctx : Ctx
  record : Rec
  deriving Repr, DecidableEq

/-- Final status of `wal_parse_container`. `diverged` is a model artefact (loop
bound exhausted), proved unreachable. -/
inductive Status where
  | ok | eof | badType | diverged
  deriving Repr, DecidableEq

/-- The record loop, src/recovery/wal_reader.c:645-721, for a consumer that
always answers `WALPARSE_OK`.  `fuel` bounds the number of iterations. -/
def recLoop (v : Nat) (b : Buf) : Nat → Ctx → Nat → List Delivered × Status × Nat
  | 0, _, p => ([], if p < b.fin then .diverged else .ok, p)
  | fuel + 1, c, p =>
    if p < b.fin then
      match readU8 b p with
      | .eof => ([], .eof, p)
      | .ok tag p1 =>
        match recParser v c.relreplident tag with
        | none => ([], .badType, p1)
        | some q =>
          match q b p1 with
          | .eof => ([], .eof, p1)
          | .ok r p2 =>
            let c' := c.after r
            let (ds, st, pe) := recLoop v b fuel c' p2
            (⟨p, c', r⟩ :: ds, st, pe)
    else ([], .ok, p)

/-- `wal_container_read_header`, src/recovery/wal_reader.c:461-531, release
build (the `IS_DEV` version refusals are not modelled).  The first byte is
fetched with no bounds check. Result: version and flags. -/
def readHeader : P (Nat × UInt8) := fun b p =>
  let firstByte := b.mem p
  if 16 ≤ firstByte.toNat then
    (do
      let v ← readU16
      if 17 ≤ v.toNat then
        let f ← readU8
        return (v.toNat, f)
      else return (v.toNat, 0) : P (Nat × UInt8)) b p
  else .ok (0, 0) p

/-- `wal_container_parse_flags`, src/recovery/wal_reader.c:548-564. -/
def readFlags (v : Nat) (f : UInt8) : P Header := do
  let xi ← (if f &&& 1 != 0 then do
      let t ← readU64
      let x ← readU32
      return some (t, x)
    else return none : P (Option (UInt64 × UInt32)))
  let oi ← (if f &&& 2 != 0 then do
      let i ← readU16
      let l ← readU64
      return some (i, l)
    else return none : P (Option (UInt16 × UInt64)))
  return ⟨v, xi, oi⟩

/-- What a consumer observes from one call of `wal_parse_container`: header (if
it could be read), delivered records, status and final cursor. -/
structure Outcome where
  header : Option Header
  records : List Delivered
  status : Status
  final : Nat
  deriving Repr, DecidableEq

/-- `wal_parse_container`, src/recovery/wal_reader.c:591-724, with consumer
callbacks that accept everything. -/
def parseContainer (b : Buf) : Outcome :=
  match (do let (v, f) ← readHeader; readFlags v f : P Header) b 0 with
  | .eof => ⟨none, [], .eof, 0⟩
  | .ok h p =>
    let (ds, st, pe) := recLoop h.version b (b.fin - p) {} p
    ⟨some h, ds, st, pe⟩

end Verif.Wal
