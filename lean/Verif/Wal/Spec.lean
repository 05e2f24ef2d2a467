import Verif.Wal.Reader
/-! # What a WAL container is supposed to mean (independent of the parser) -/

namespace Verif.Wal

/-- A record of format version `v` as the current code should understand it:
fields that version did not have take their documented defaults. -/
def Rec.asVersion (v : Nat) : Rec → Rec
  | .xid o l h => .xid o l (if v < 17 then 0 else h)
  | .jointCommit x m c s => .jointCommit x m c (if v < 19 then false else s)
  | .relation t o s ver bver sp =>
      .relation t o (if v < 17 then none else s)
        (if v < 17 then invalidVersion else ver)
        (if v < 17 then invalidVersion else bver)
        (if v < 18 then defaultTablespace else sp)
  | .rbToSp p x c => .rbToSp p (if v < 17 then invalidOXid else x) (if v < 17 then 0 else c)
  | r => r

/-- The replica identity in force after a record: a RELATION record starts with
the default one, a RELREPLIDENT record sets it. -/
def identityAfter (rr : UInt8) : Rec → UInt8
  | .relation .. => replDefault
  | .relreplident c _ => c
  | _ => rr

/-- What a writer may emit while replica identity `rr` is in force: row changes
carry an old image exactly for REINSERT and for UPDATE under REPLICA IDENTITY
FULL, tuples are at most 65535 bytes, RELATION records carry a snapshot (since
version 17). -/
def Rec.Writable (v : Nat) (rr : UInt8) : Rec → Prop
  | .relation _ _ s _ _ _ => v < 17 ∨ s.isSome
  | .modify k t1 t2 =>
      t1.data.length ≤ 65535 ∧ (∀ t, t2 = some t → t.data.length ≤ 65535) ∧
      (t2.isSome ↔ (k = .reinsert ∨ (k = .update ∧ rr = replFull)))
  | _ => True

/-- A sequence of records a writer may emit, the replica identity in force being `rr`. -/
def WritableSeq (v : Nat) : UInt8 → List Rec → Prop
  | _, [] => True
  | rr, r :: rs => r.Writable v rr ∧ WritableSeq v (identityAfter rr r) rs

/-- Format versions that ever existed with a defined layout. -/
def KnownVersion (v : Nat) : Prop := v = 0 ∨ (16 ≤ v ∧ v ≤ 19)

/-- A header of a known version: header extras exist only since version 17. -/
def Header.Valid (h : Header) : Prop :=
  KnownVersion h.version ∧ (h.version < 17 → h.xactInfo = none ∧ h.originInfo = none)

/-- A version-0 container has no header; it is recognised by its first record
tag being below 16, so it must start with such a record. -/
def StartsOld (v : Nat) (rs : List Rec) : Prop :=
  v = 0 → ∃ r rs', rs = r :: rs' ∧ r.tag.toNat < 16

/-- Records with the offset and the persistent context they must be delivered with. -/
def expected (v : Nat) : Nat → Ctx → List Rec → List Delivered
  | _, _, [] => []
  | off, c, r :: rs =>
    let c' := c.after (r.asVersion v)
    ⟨off, c', r.asVersion v⟩ :: expected v (off + (encRec v r).length) c' rs

/-- The last value some record of a list declares. -/
def lastDeclared {α} (f : Rec → Option α) (rs : List Rec) : Option α := (rs.filterMap f).getLast?

/-- Transaction (oxid, heap xid) declared by a record. -/
def Rec.declaresXid : Rec → Option (UInt64 × UInt32)
  | .xid o _ h => some (o, h)
  | _ => none

/-- Logical xid declared by a record. -/
def Rec.declaresLogicalXid : Rec → Option UInt32
  | .xid _ l _ => some l
  | .savepoint _ l _ => some l
  | _ => none

/-- Relation declared by a record. -/
def Rec.declaresOids : Rec → Option Oids
  | .relation _ o _ _ _ _ => some o
  | .cic _ o _ _ _ => some o
  | _ => none

/-- Tree type and tablespace declared by a record. -/
def Rec.declaresTree : Rec → Option (UInt8 × UInt32)
  | .relation t _ _ _ _ sp => some (t, sp)
  | _ => none

/-- Replica identity declared by a record. -/
def Rec.declaresIdentity : Rec → Option UInt8
  | .relation .. => some replDefault
  | .relreplident c _ => some c
  | _ => none

/-- A context says what the records so far declared last. -/
def Ctx.Declared (c : Ctx) (rs : List Rec) : Prop :=
  (c.oxid, c.heapXid) = (lastDeclared Rec.declaresXid rs).getD (0, 0) ∧
  c.logicalXid = (lastDeclared Rec.declaresLogicalXid rs).getD 0 ∧
  c.oids = (lastDeclared Rec.declaresOids rs).getD ⟨0, 0, 0⟩ ∧
  (c.treeType, c.spcoid) = (lastDeclared Rec.declaresTree rs).getD (0, 0) ∧
  c.relreplident = (lastDeclared Rec.declaresIdentity rs).getD replDefault

end Verif.Wal
