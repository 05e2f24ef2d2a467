import Verif.Wal.Record
/-!
# The per-backend WAL buffer, `src/recovery/wal.c`

`LocalWal` and all functions that append to it or flush it.  The shared and
session variables the code reads on the way (current oxid, `runXmin`, next CSN,
command id, replication origin, ...) are passed in an `Env` per call.
Every record is appended as bytes; `ovf` is set as soon as a write goes past
`LOCAL_WAL_BUFFER_SIZE` (undefined behaviour in C; the `Assert`s guarding it
are compiled out of release builds).
-/

namespace Verif.Wal

/-- `LOCAL_WAL_BUFFER_SIZE`, include/recovery/wal.h:245. -/
def bufSize : Nat := 8192

/-- Ambient values read by src/recovery/wal.c while appending or flushing:
`get_current_oxid_if_any`, `get_current_logical_xid`,
`GetTopTransactionIdIfAny`, `xid_meta->runXmin`, `nextCommitSeqNo`,
`o_get_current_command`, `GetCurrentTransactionStopTimestamp`, session
replication origin, `synchronous_commit >= REMOTE_APPLY`, and whether
`recovery_oxid` is set. -/
structure Env where
  oxid : UInt64
  lxid : UInt32 := 0
  heapXid : UInt32 := 0
  runXmin : UInt64 := 0
  csn : UInt64 := 0
  cid : UInt32 := 0
  stopTime : UInt64 := 0
  origin : Option (UInt16 × UInt64) := none
  remoteApply : Bool := false
  inRecovery : Bool := false
  deriving Repr, DecidableEq

/-- `LocalWal` (src/recovery/wal.c:32-43) plus the containers handed to
`XLogInsert` so far (`out`, oldest first) and the overflow marker. -/
structure LW where
  buf : List UInt8 := []
  material : Bool := false
  hasXid : Bool := false
  hasSwitch : Bool := false
  oids : Oids := ⟨0, 0, 0⟩
  ixType : UInt8 := 0
  out : List (List UInt8) := []
  ovf : Bool := false
  deriving Repr, DecidableEq

/-- What the WAL code needs of a `BTreeDescr` (include/btree/btree.h) and, for a
primary index, of its `OIndexDescr`. -/
structure Desc where
  oids : Oids
  spcoid : UInt32
  type : UInt8
  tableOids : Oids
  tableSpcoid : UInt32
  deriving Repr, DecidableEq

/-- `SYS_TREES_DATOID`, include/catalog/sys_trees.h:22. -/
def sysTreesDatoid : UInt32 := 1
/-- `oIndexPrimary`, include/orioledb.h:179. -/
def oIndexPrimary : UInt8 := 3

/-- Tree named in the WAL for a descriptor: primary indexes of ordinary tables
are logged under the table's oids with type `oIndexInvalid`.
src/recovery/wal.c:87-93, 150-156. -/
def Desc.target (d : Desc) : Oids × UInt8 :=
  if d.oids.datoid ≠ sysTreesDatoid ∧ d.type = oIndexPrimary then (d.tableOids, 0)
  else (d.oids, d.type)

/-- Tablespace that goes with `Desc.target`. src/recovery/wal.c:87-93, 516. -/
def Desc.targetSpc (d : Desc) : UInt32 :=
  if d.oids.datoid ≠ sysTreesDatoid ∧ d.type = oIndexPrimary then d.tableSpcoid else d.spcoid

/-- Append one record at `buffer_offset` and advance it: the common tail of
every `add_*_wal_record` function of src/recovery/wal.c. -/
def LW.put (s : LW) (r : Rec) : LW :=
  { s with buf := s.buf ++ encRec 19 r,
           ovf := s.ovf || decide (bufSize < (s.buf ++ encRec 19 r).length) }

/-- `XID_RESERVED_LENGTH`, src/recovery/wal.c:57 (`sizeof(WALRecXid)` = 17). -/
def LW.xidReserved (s : LW) : Nat := if s.hasXid then 0 else 17

/-- `reset_local_wal_buffer`, src/recovery/wal.c:733-741. -/
def LW.reset (s : LW) : LW :=
  { s with buf := [], hasXid := false, hasSwitch := false, ixType := 0, oids := ⟨0, 0, 0⟩ }

/-- `log_logical_wal_container`, src/recovery/wal.c:798-843: the bytes given to
`XLogInsert`. -/
def container (e : Env) (withXactTime : Bool) (body : List UInt8) : List UInt8 :=
  encHeader ⟨19, if withXactTime then some (e.stopTime, e.heapXid) else none, e.origin⟩ ++ body

/-- `flush_local_wal`, src/recovery/wal.c:746-782 (the publication of the commit
position in shared memory is not modelled). -/
def LW.flush (s : LW) (e : Env) (withXactTime : Bool) : LW :=
  { s.reset with out := s.out ++ [container e withXactTime s.buf], material := true }

/-- `flush_local_wal_if_needed`, src/recovery/wal.c:784-796. -/
def LW.flushIfNeeded (s : LW) (e : Env) (n : Nat) : LW :=
  if s.buf.length + n + s.xidReserved > bufSize then
    { s.reset with out := s.out ++ [container e false s.buf], material := true }
  else s

/-- `add_xid_wal_record`, src/recovery/wal.c:433-454. -/
def LW.addXid (s : LW) (e : Env) : LW :=
  { s with hasXid := true }.put (.xid e.oxid e.lxid e.heapXid)

/-- `add_xid_wal_record_if_needed`, src/recovery/wal.c:456-467; also the
`if (!local_wal.contains_xid) add_xid_wal_record(oxid, logicalXid)` of
src/recovery/wal.c:251-252, 273-274, 312-313. -/
def LW.addXidIfNeeded (s : LW) (e : Env) : LW :=
  if s.hasXid then s else s.addXid e

/-- `add_rel_wal_record`, src/recovery/wal.c:485-527. -/
def LW.addRel (s : LW) (e : Env) (t : Oids × UInt8) (spc ver bver : UInt32) : LW :=
  { s.put (.relation t.2 t.1 (some ⟨e.runXmin, e.csn, e.cid⟩) ver bver spc) with
    ixType := t.2, oids := t.1 }

/-- `!ORelOidsIsEqual(local_wal.oids, oids) || type != local_wal.ix_type`,
src/recovery/wal.c:117, 128, 162, 171. -/
def LW.relChanged (s : LW) (t : Oids × UInt8) : Bool :=
  s.oids != t.1 || t.2 != s.ixType

/-- Length of an optional tuple (`length2` is 0 when there is none). -/
def optLen : Option Tup → Nat
  | none => 0
  | some t => t.data.length

/-- `add_modify_wal_record_extended` and `add_local_modify`,
src/recovery/wal.c:73-136, 185-230.  (sizes: WALRecModify1 4, WALRecModify2 7,
WALRecRelation 46, WALRecRelReplident 6.) -/
def LW.addModify (s : LW) (e : Env) (k : ModKind) (d : Desc) (t1 : Tup) (t2 : Option Tup)
    (relrep : UInt8) (ver bver : UInt32) : LW :=
  if e.inRecovery then s else
  let t := d.target
  let two : Bool := k == .reinsert || (k == .update && relrep == replFull)
  let req := if two then 7 + t1.data.length + optLen t2 else 4 + t1.data.length
  let req := if s.relChanged t then req + 46 else req
  let req := if relrep != replDefault then req + 6 else req
  let s := s.flushIfNeeded e req
  let s := s.addXidIfNeeded e
  let s := if s.relChanged t then
      let s := s.addRel e t d.targetSpc ver bver
      if relrep != replDefault then s.put (.relreplident relrep 0) else s
    else s
  { s.put (.modify k t1 t2) with material := true }

/-- `add_bridge_erase_wal_record`, src/recovery/wal.c:138-180. -/
def LW.addBridgeErase (s : LW) (e : Env) (d : Desc) (hasOxid : Bool) (hi lo pos : UInt16)
    (ver bver : UInt32) : LW :=
  if e.inRecovery then s else
  let t := d.target
  let req := if s.relChanged t then 7 + 46 else 7
  let s := s.flushIfNeeded e req
  let s := if hasOxid then s.addXidIfNeeded e else s
  let s := if s.relChanged t then s.addRel e t d.targetSpc ver bver else s
  s.put (.bridgeErase hi lo pos)

/-- The records that are appended by the same sequence
`flush_local_wal_if_needed(sizeof(*rec)); add_xid_wal_record_if_needed(); ...`:
meta lock (src/recovery/wal.c:529-545), meta unlock (547-567), database copy
(569-588), database create copy (590-608), template checkpoint (610-630),
savepoint (658-679), truncate (992-1011). -/
inductive Plain where
  | metaLock
  | metaUnlock (oids : Oids) (oldRelnode : UInt32)
  | dbCopy (dat src dst : UInt32)
  | dbCreateCopy (src dst : UInt32)
  | dbTemplateCheckpoint (src : UInt32)
  | savepoint (parentSubid parentLogicalXid : UInt32)
  | truncate (oids : Oids)
  deriving Repr, DecidableEq

/-- Record written by each of the `Plain` functions (lines as above;
`get_current_logical_xid()` at src/recovery/wal.c:663, `InvalidOid` at 614). -/
def Plain.record (e : Env) : Plain → Rec
  | .metaLock => .metaLock
  | .metaUnlock o old => .metaUnlock o old
  | .dbCopy a b c => .dbCopy a b c
  | .dbCreateCopy a b => .dbCreateCopy a b
  | .dbTemplateCheckpoint a => .dbTemplateCheckpoint a 0
  | .savepoint p pl => .savepoint p e.lxid pl
  | .truncate o => .truncate o

/-- `sizeof(*rec)` for each of the `Plain` records, include/recovery/wal.h:80-243. -/
def Plain.size : Plain → Nat
  | .metaLock => 1
  | .metaUnlock .. => 17
  | .dbCopy .. => 13
  | .dbCreateCopy .. => 9
  | .dbTemplateCheckpoint .. => 9
  | .savepoint .. => 13
  | .truncate .. => 13

/-- The seven functions listed at `Plain`. -/
def LW.addPlain (s : LW) (e : Env) (p : Plain) : LW :=
  ((s.flushIfNeeded e p.size).addXidIfNeeded e).put (p.record e)

/-- `add_cic_phase_wal_record`, src/recovery/wal.c:1024-1055. -/
def LW.addCic (s : LW) (e : Env) (ph : CicPhase) (o : Oids) (tr tn ver : UInt32) : LW :=
  { ((s.flushIfNeeded e 25).addXidIfNeeded e).put (.cic ph o tr tn ver) with
    ixType := 0, oids := ⟨0, 0, 0⟩ }

/-- `add_switch_logical_xid_wal_record`, src/recovery/wal.c:633-656. -/
def LW.addSwitch (s : LW) (e : Env) (top sub : UInt32) : LW :=
  if s.hasSwitch then s
  else ({ s with hasSwitch := true }.flushIfNeeded e 9).put (.switchXid top sub)

/-- `add_rollback_to_savepoint_wal_record`, src/recovery/wal.c:681-725. -/
def LW.addRbToSp (s : LW) (e : Env) (parentSubid : UInt32) : LW :=
  let s := { s with hasXid := false }
  let s := s.flushIfNeeded e 21
  let s := s.addXidIfNeeded e
  let s := s.put (.rbToSp parentSubid e.runXmin e.csn)
  { s.flush e false with hasXid := false }

/-- `add_finish_wal_record`, src/recovery/wal.c:367-402. -/
def LW.addFinish (s : LW) (e : Env) (commit : Bool) : LW :=
  let s := if commit && e.remoteApply then s.put .replayFeedback else s
  { s.put (if commit then .commit e.runXmin e.csn else .rollback e.runXmin e.csn) with
    hasSwitch := false }

/-- The early exit of `wal_commit` and `wal_rollback` when nothing material was
logged: the buffer is dropped but `contains_xid` and `contains_switch_xid` keep
their values.  src/recovery/wal.c:240-246, 301-307. -/
def LW.discard (s : LW) : LW :=
  { s with buf := [], ixType := 0, oids := ⟨0, 0, 0⟩ }

/-- `wal_commit`, src/recovery/wal.c:232-260. -/
def LW.commit (s : LW) (e : Env) (autonomous : Bool) : LW :=
  if !s.material then s.discard else
  let s := s.flushIfNeeded e (17 + if e.remoteApply then 1 else 0)
  let s := s.addXidIfNeeded e
  let s := s.addFinish e true
  { s.flush e (!autonomous) with material := false }

/-- `wal_rollback`, src/recovery/wal.c:296-326. -/
def LW.rollback (s : LW) (e : Env) (autonomous : Bool) : LW :=
  if !s.material then s.discard else
  let s := s.flushIfNeeded e 17
  let s := s.addXidIfNeeded e
  let s := s.addFinish e false
  { s.flush e (!autonomous) with material := false }

/-- `wal_joint_commit` with `add_joint_commit_wal_record`,
src/recovery/wal.c:262-286, 404-428. -/
def LW.jointCommit (s : LW) (e : Env) (xid : UInt32) (sub : Bool) : LW :=
  let s := s.flushIfNeeded e 22
  let s := s.addXidIfNeeded e
  let s := s.flushIfNeeded e 22
  let s := s.addXidIfNeeded e
  let s := { s.put (.jointCommit xid e.runXmin e.csn sub) with hasSwitch := false }
  { s.flush e false with material := false }

/-- `wal_emit_recovery_finish_rollback`, src/recovery/wal.c:346-365. -/
def LW.recoveryFinishRollback (s : LW) (e : Env) : LW :=
  let s := s.addXid e
  let s := s.addFinish e false
  { s.flush e false with material := false }

/-- The operations a backend performs on its local WAL.  `flush` stands for the
callers of `flush_local_wal(false, false)` (src/catalog/o_tables.c:2845,
src/catalog/ddl.c:1059-1060, src/tableam/vacuum.c:943-944, 1379-1380,
src/tableam/operations.c:369, 408, src/checkpoint/checkpoint.c:6508), all of
which have a non-empty buffer.  `startAuto`/`endAuto` are the WAL-relevant parts
of `start_autonomous_transaction`, `abort_autonomous_transaction` and
`finish_autonomous_transaction` (src/transam/undo.c:3111-3214). -/
inductive Op where
  | modify (e : Env) (k : ModKind) (d : Desc) (t1 : Tup) (t2 : Option Tup) (relrep : UInt8)
      (ver bver : UInt32)
  | bridgeErase (e : Env) (d : Desc) (hasOxid : Bool) (hi lo pos : UInt16) (ver bver : UInt32)
  | plain (e : Env) (p : Plain)
  | cic (e : Env) (ph : CicPhase) (o : Oids) (tr tn ver : UInt32)
  | switchXid (e : Env) (top sub : UInt32)
  | rbToSp (e : Env) (parentSubid : UInt32)
  | commit (e : Env)
  | rollback (e : Env)
  | jointCommit (e : Env) (xid : UInt32) (sub : Bool)
  | flush (e : Env)
  | startAuto (e : Env)
  | endAuto (e : Env) (hasOxid commit : Bool)
  deriving Repr, DecidableEq

/-- A backend: its local WAL and the `local_wal_has_material_changes` values
saved by enclosing autonomous transactions (include/transam/undo.h:282). -/
structure Backend where
  lw : LW := {}
  saved : List Bool := []
  deriving Repr, DecidableEq

/-- Flush a non-empty buffer: `if (!local_wal_is_empty()) flush_local_wal(false, false)`. -/
def LW.flushNonEmpty (s : LW) (e : Env) : LW :=
  if s.buf = [] then s else s.flush e false

/-- Effect of one operation. -/
def Backend.step (b : Backend) : Op → Backend
  | .modify e k d t1 t2 rr ver bver => { b with lw := b.lw.addModify e k d t1 t2 rr ver bver }
  | .bridgeErase e d ho hi lo pos ver bver =>
      { b with lw := b.lw.addBridgeErase e d ho hi lo pos ver bver }
  | .plain e p => { b with lw := b.lw.addPlain e p }
  | .cic e ph o tr tn ver => { b with lw := b.lw.addCic e ph o tr tn ver }
  | .switchXid e t s => { b with lw := b.lw.addSwitch e t s }
  | .rbToSp e p => { b with lw := b.lw.addRbToSp e p }
  | .commit e => { b with lw := b.lw.commit e false }
  | .rollback e => { b with lw := b.lw.rollback e false }
  | .jointCommit e x sub => { b with lw := b.lw.jointCommit e x sub }
  | .flush e => { b with lw := b.lw.flushNonEmpty e }
  | .startAuto e => { lw := b.lw.flushNonEmpty e, saved := b.lw.material :: b.saved }
  | .endAuto e ho c =>
      let lw := if ho then (if c then b.lw.commit e true else b.lw.rollback e true) else b.lw
      match b.saved with
      | [] => { b with lw := lw }
      | m :: ms => { lw := { lw with material := m }, saved := ms }

/-- A run of operations. -/
def Backend.run (b : Backend) (ops : List Op) : Backend := ops.foldl Backend.step b

end Verif.Wal
