import Verif.Wal.Bytes
/-!
# WAL record kinds and their on-wire layout

`include/recovery/wal_record.h`, `include/recovery/wal.h` and the
`add_*_wal_record` functions of `src/recovery/wal.c`.
-/

namespace Verif.Wal

/-- A tuple in a modify record: `OTuple.formatFlags` and the bytes.
include/recovery/wal.h:131-150. -/
structure Tup where
  flags : UInt8
  data : List UInt8
  deriving Repr, DecidableEq

/-- The four row-change record kinds (tags 5, 6, 7, 15).
include/recovery/wal_record.h:47-49,57. -/
inductive ModKind where
  | insert | update | delete | reinsert
  deriving Repr, DecidableEq

/-- The three CREATE INDEX CONCURRENTLY phase records (tags 22-24).
include/recovery/wal_record.h:64-66. -/
inductive CicPhase where
  | writersDirect | drainBarrier | indexValid
  deriving Repr, DecidableEq

/-- Identity of a tree without its tablespace, `ORelOids`
(include/orioledb.h:300-330): the three oids `ORelOidsIsEqual` compares. -/
structure Oids where
  datoid : UInt32
  reloid : UInt32
  relnode : UInt32
  deriving Repr, DecidableEq

/-- The snapshot part of a RELATION record. include/recovery/wal.h:108-111. -/
structure Snap where
  xmin : UInt64
  csn : UInt64
  cid : UInt32
  deriving Repr, DecidableEq

/-- A WAL record: one constructor per parser of
include/recovery/wal_record.h:42-66, fields as in
include/recovery/wal_reader.h:34-124.  `snap = none` stands for
`o_non_deleted_snapshot`. -/
inductive Rec where
  | xid (oxid : UInt64) (logicalXid heapXid : UInt32)
  | commit (xmin csn : UInt64)
  | rollback (xmin csn : UInt64)
  | jointCommit (xid : UInt32) (xmin csn : UInt64) (sub : Bool)
  | relation (treeType : UInt8) (oids : Oids) (snap : Option Snap)
      (version baseVersion : UInt32) (spcoid : UInt32)
  | relreplident (c : UInt8) (ixOid : UInt32)
  | modify (k : ModKind) (t1 : Tup) (t2 : Option Tup)
  | metaLock
  | metaUnlock (oids : Oids) (oldRelnode : UInt32)
  | savepoint (parentSubid logicalXid parentLogicalXid : UInt32)
  | rbToSp (parentSubid : UInt32) (xmin csn : UInt64)
  | truncate (oids : Oids)
  | bridgeErase (blkHi blkLo pos : UInt16)
  | replayFeedback
  | switchXid (top sub : UInt32)
  | dbCopy (dat src dst : UInt32)
  | dbCreateCopy (src dst : UInt32)
  | dbTemplateCheckpoint (src dst : UInt32)
  | cic (ph : CicPhase) (oids : Oids) (tableReloid tableRelnode version : UInt32)
  deriving Repr, DecidableEq

/-- `InvalidOXid`, include/transam/oxid.h (used at src/recovery/wal_reader.c:246). -/
def invalidOXid : UInt64 := 0x7FFFFFFFFFFFFFFF
/-- `O_TABLE_INVALID_VERSION` = UINT32_MAX, used at src/recovery/wal_reader.c:161. -/
def invalidVersion : UInt32 := 0xFFFFFFFF
/-- PostgreSQL's `DEFAULTTABLESPACE_OID`, used at src/recovery/wal_reader.c:175. -/
def defaultTablespace : UInt32 := 1663
/-- `REPLICA_IDENTITY_DEFAULT` ('d') of PostgreSQL. -/
def replDefault : UInt8 := 100
/-- `REPLICA_IDENTITY_FULL` ('f') of PostgreSQL. -/
def replFull : UInt8 := 102

/-- `ORIOLEDB_WAL_VERSION`, include/recovery/wal.h:31. -/
def walVersion : Nat := 19

/-- Tag byte of a modify record, include/recovery/wal_record.h:47-49,57. -/
def ModKind.tag : ModKind → UInt8
  | .insert => 5
  | .update => 6
  | .delete => 7
  | .reinsert => 15

/-- Tag byte of a CIC record, include/recovery/wal_record.h:64-66. -/
def CicPhase.tag : CicPhase → UInt8
  | .writersDirect => 22
  | .drainBarrier => 23
  | .indexValid => 24

/-- Tag byte of a record, include/recovery/wal_record.h:42-66. -/
def Rec.tag : Rec → UInt8
  | .xid .. => 1
  | .commit .. => 2
  | .rollback .. => 3
  | .relation .. => 4
  | .modify k .. => k.tag
  | .metaLock => 8
  | .metaUnlock .. => 9
  | .savepoint .. => 10
  | .rbToSp .. => 11
  | .jointCommit .. => 12
  | .truncate .. => 13
  | .bridgeErase .. => 14
  | .replayFeedback => 16
  | .switchXid .. => 17
  | .relreplident .. => 18
  | .dbCopy .. => 19
  | .dbCreateCopy .. => 20
  | .dbTemplateCheckpoint .. => 21
  | .cic ph .. => ph.tag

/-- The oids as three consecutive fields (include/recovery/wal.h:104-106). -/
def encOids (o : Oids) : List UInt8 := u32 o.datoid ++ u32 o.reloid ++ u32 o.relnode

/-- Payload bytes (after the tag) that a writer of format version `v` emits.
For `v = 19` these are the packed structs of include/recovery/wal.h:80-243 as
filled by src/recovery/wal.c:185-230 (modify), 367-402 (finish), 404-428
(joint commit), 433-454 (xid), 469-527 (relreplident, relation), 529-725 (the
rest), 992-1055 (truncate, CIC); bridge erase 174-179.  For smaller `v` the
fields marked "Since ORIOLEDB_WAL_VERSION = 17", "Since
ORIOLEDB_REL_TABLESPACE_WAL_VERSION" (18) and "Since
ORIOLEDB_SUBXACT_JOINT_COMMIT_WAL_VERSION" (19) in include/recovery/wal.h are
absent; the older writers themselves are no longer in the tree.  A missing
snapshot is only encodable below 17. -/
def encPayload (v : Nat) : Rec → List UInt8
  | .xid o l h => u64 o ++ u32 l ++ (if 17 ≤ v then u32 h else [])
  | .commit x c => u64 x ++ u64 c
  | .rollback x c => u64 x ++ u64 c
  | .jointCommit x m c s =>
      u32 x ++ u64 m ++ u64 c ++ (if 19 ≤ v then u8 (if s then 1 else 0) else [])
  | .relation t o s ver bver sp =>
      u8 t ++ encOids o ++
      (if 17 ≤ v then
        (match s with
          | some s => u64 s.xmin ++ u64 s.csn ++ u32 s.cid
          | none => []) ++ u32 ver ++ u32 bver
      else []) ++
      (if 18 ≤ v then u32 sp else [])
  | .relreplident c ix => u8 c ++ u32 ix
  | .modify _ t1 none => u8 t1.flags ++ u16 (UInt16.ofNat t1.data.length) ++ t1.data
  | .modify _ t1 (some t2) =>
      u8 t1.flags ++ u8 t2.flags ++ u16 (UInt16.ofNat t1.data.length)
        ++ u16 (UInt16.ofNat t2.data.length) ++ t1.data ++ t2.data
  | .metaLock => []
  | .metaUnlock o old => u32 o.datoid ++ u32 o.reloid ++ u32 old ++ u32 o.relnode
  | .savepoint p l pl => u32 p ++ u32 l ++ u32 pl
  | .rbToSp p x c => u32 p ++ (if 17 ≤ v then u64 x ++ u64 c else [])
  | .truncate o => encOids o
  | .bridgeErase h l p => u16 h ++ u16 l ++ u16 p
  | .replayFeedback => []
  | .switchXid t s => u32 t ++ u32 s
  | .dbCopy d s t => u32 d ++ u32 s ++ u32 t
  | .dbCreateCopy s d => u32 s ++ u32 d
  | .dbTemplateCheckpoint s d => u32 s ++ u32 d
  | .cic _ o tr tn ver => encOids o ++ u32 tr ++ u32 tn ++ u32 ver

/-- Tag byte and payload of one record. -/
def encRec (v : Nat) (r : Rec) : List UInt8 := r.tag :: encPayload v r

/-- Concatenation of records, the body of a container. -/
def encRecs (v : Nat) : List Rec → List UInt8
  | [] => []
  | r :: rs => encRec v r ++ encRecs v rs

/-- Container header contents: `WalContainer`, include/recovery/wal_reader.h:126-142. -/
structure Header where
  version : Nat
  xactInfo : Option (UInt64 × UInt32)
  originInfo : Option (UInt16 × UInt64)
  deriving Repr, DecidableEq

/-- The flags byte, include/recovery/wal.h:19-20 and src/recovery/wal.c:813-817. -/
def Header.flags (h : Header) : UInt8 :=
  (if h.xactInfo.isSome then 1 else 0) + (if h.originInfo.isSome then 2 else 0)

/-- The header parts announced by the flags, src/recovery/wal.c:820-838. -/
def encFlags (h : Header) : List UInt8 :=
  (match h.xactInfo with
    | some (t, x) => u64 t ++ u32 x
    | none => []) ++
  (match h.originInfo with
    | some (i, l) => u16 i ++ u64 l
    | none => [])

/-- Header bytes: src/recovery/wal.c:798-840 for version 19; for version 16
only the version, for version 0 nothing (include/recovery/wal.h:33-52). -/
def encHeader (h : Header) : List UInt8 :=
  (if 16 ≤ h.version then u16 (UInt16.ofNat h.version) else []) ++
  (if 17 ≤ h.version then u8 h.flags ++ encFlags h else [])

/-- A whole container. src/recovery/wal.c:798-843. -/
def encContainer (h : Header) (rs : List Rec) : List UInt8 :=
  encHeader h ++ encRecs h.version rs

end Verif.Wal
