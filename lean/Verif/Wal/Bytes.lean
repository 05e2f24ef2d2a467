/-!
# Byte-level reading, as done by `wal_reader.c`

Little-endian scalars (`memcpy` from/to an integer on the little-endian
platforms OrioleDB supports) and the cursor macros of
`include/recovery/wal_reader.h`.
-/

namespace Verif.Wal

/-- `memcpy(dst, &x, n)`: the `n` low bytes of `x`, least significant first.
Models every `memcpy(rec->field, &value, sizeof(value))` of
src/recovery/wal.c:73-1055 (little-endian host). -/
def leBytes : Nat → Nat → List UInt8
  | 0, _ => []
  | n + 1, x => UInt8.ofNat x :: leBytes n (x / 256)

/-- `memcpy(&x, src, n)`: the value of a little-endian byte string.
Models the `memcpy` in `WR_PARSE`, include/recovery/wal_reader.h:254-259. -/
def leVal : List UInt8 → Nat
  | [] => 0
  | b :: bs => b.toNat + 256 * leVal bs

/-- The memory a reader may touch (`mem`, total: C can read past the end) and
the position `fin` of `r->end`.  include/recovery/wal_reader.h:201-216
(`WalReaderState.end`). Positions are offsets from `r->start`. -/
structure Buf where
  mem : Nat → UInt8
  fin : Nat

/-- Outcome of a parsing step: a value and the new cursor, or `WALPARSE_EOF`.
include/recovery/wal_reader.h:166-173. -/
inductive Res (α : Type) where
  | ok (a : α) (ptr : Nat)
  | eof
  deriving Repr, DecidableEq

/-- A parsing step: buffer and cursor (`r->ptr`) to outcome. -/
def P (α : Type) := Buf → Nat → Res α

/-- Sequencing: every `WR_*` macro returns from the enclosing function on EOF
(include/recovery/wal_reader.h:248-252). -/
instance : Monad P where
  pure a := fun _ p => .ok a p
  bind q f := fun b p =>
    match q b p with
    | .ok a p' => f a b p'
    | .eof => .eof

/-- `WR_REQUIRE_SIZE` + `memcpy` + advance (`WR_PARSE`), and `WR_SKIP` together
with the later read of the skipped tuple bytes.
include/recovery/wal_reader.h:248-265.  The size test is an unsigned
comparison of `end - ptr`: when the cursor is already past `end` the
difference wraps to a huge number and the test passes, which is what the
`p ≤ b.fin` conjunct expresses. -/
def readBytes (n : Nat) : P (List UInt8) := fun b p =>
  if p ≤ b.fin ∧ b.fin - p < n then .eof
  else .ok ((List.range n).map fun i => b.mem (p + i)) (p + n)

/-- `WR_PARSE` of a `uint8`. include/recovery/wal_reader.h:254-259. -/
def readU8 : P UInt8 := do
  let bs ← readBytes 1
  return UInt8.ofNat (leVal bs)

/-- `WR_PARSE` of a `uint16`. include/recovery/wal_reader.h:254-259. -/
def readU16 : P UInt16 := do
  let bs ← readBytes 2
  return UInt16.ofNat (leVal bs)

/-- `WR_PARSE` of a `uint32`. include/recovery/wal_reader.h:254-259. -/
def readU32 : P UInt32 := do
  let bs ← readBytes 4
  return UInt32.ofNat (leVal bs)

/-- `WR_PARSE` of a `uint64`. include/recovery/wal_reader.h:254-259. -/
def readU64 : P UInt64 := do
  let bs ← readBytes 8
  return UInt64.ofNat (leVal bs)

/-- Bytes of a `uint8` field of a packed WAL record. -/
def u8 (x : UInt8) : List UInt8 := [x]
/-- Bytes of a `uint16` field of a packed WAL record (include/recovery/wal.h:132-150). -/
def u16 (x : UInt16) : List UInt8 := leBytes 2 x.toNat
/-- Bytes of a `uint32`/`Oid`/`TransactionId` field (include/recovery/wal.h:80-243). -/
def u32 (x : UInt32) : List UInt8 := leBytes 4 x.toNat
/-- Bytes of a `uint64`/`OXid`/`CommitSeqNo` field (include/recovery/wal.h:80-243). -/
def u64 (x : UInt64) : List UInt8 := leBytes 8 x.toNat

/-- A buffer that holds exactly the given bytes, with `tail` describing what
happens to lie in memory after them. -/
def bufOf (bs : List UInt8) (tail : Nat → UInt8) : Buf where
  mem := fun i => if h : i < bs.length then bs[i] else tail (i - bs.length)
  fin := bs.length

end Verif.Wal
