import Verif.KeyBitmap.Model

/-!
# Primary keys as keys of a bitmap

Model of the parts of src/tableam/bitmap_scan.c that turn a primary key into a key of
the bitmap and back, of the two callbacks that let a tree scan skip pages and rows,
and of the part of src/catalog/o_indices.c that lays out a secondary index.
-/

namespace Verif.KeyBitmap

/-! ## 64-bit mode -/

/-- `UINT64_HIGH_BIT`, bitmap_scan.c:149. -/
def HIGH : Nat := 9223372036854775808

/-- Conversion of a signed number to `uint64` (C standard). -/
def u64 (v : Int) : Nat := (v % 18446744073709551616).toNat

/-- Conversion of a `uint64` to `int64` (two's complement, as every supported compiler
does it). -/
def i64 (n : Nat) : Int :=
  if n % 18446744073709551616 < 9223372036854775808 then (n % 18446744073709551616 : Nat)
  else ((n % 18446744073709551616 : Nat) : Int) - 18446744073709551616

/-- `int64_to_uint64`, bitmap_scan.c:151-158.  The negation of the least number wraps
(PostgreSQL is compiled with `-fwrapv`). -/
def int64ToUint64 (v : Int) : Nat :=
  if v ≥ 0 then u64 v ||| HIGH
  else (HIGH + 18446744073709551616 - u64 (i64 (u64 (-v)))) % 18446744073709551616

/-- `uint64_to_int64`, bitmap_scan.c:160-167. -/
def uint64ToInt64 (n : Nat) : Int :=
  if n &&& HIGH ≠ 0 then i64 (n &&& 9223372036854775807)
  else i64 (u64 (-(i64 ((HIGH + 18446744073709551616 - n) % 18446744073709551616))))

/-- Conversion to `int32` on assignment, bitmap_scan.c:198. -/
def i32 (v : Int) : Int :=
  if v % 4294967296 < 2147483648 then v % 4294967296 else v % 4294967296 - 4294967296

/-- The types of the 64-bit mode, bitmap_scan.c:174-187, 349-367. -/
inductive KeyTy where
  | int4
  | int8
  | tid
deriving DecidableEq, Repr

/-- A value of such a type: a number, or block and offset number.
src/tableam/bitmap_scan.c:169-188. -/
inductive KeyVal where
  | int (v : Int)
  | tid (block offset : Nat)
deriving DecidableEq, Repr

/-- `val_get_uint64`, bitmap_scan.c:169-188.  `BlockNumber` is `uint32`, so the shift
and the sum are reduced modulo 2^32 before the conversion to `uint64`. -/
def valGetUint64 : KeyVal → Nat
  | .int v => int64ToUint64 v
  | .tid b o => ((b <<< 16) % 4294967296 + o) % 4294967296

/-- `uint64_get_val`, bitmap_scan.c:190-212; `ItemPointerSetBlockNumber` keeps 32
bits. -/
def uint64GetVal (n : Nat) : KeyTy → KeyVal
  | .int4 => .int (i32 (uint64ToInt64 n))
  | .int8 => .int (uint64ToInt64 n)
  | .tid => .tid ((n >>> 16) % 4294967296) (n &&& 65535)

/-! ## Fixed-key mode: one column -/

/-- `OPkEncKind`, bitmap_scan.c:265-272. -/
inductive Kind where
  | sint
  | uint
  | float
  | raw
deriving DecidableEq, Repr

/-- `o_pk_fixed_types`, bitmap_scan.c:288-305, with the numbers of the types from
PostgreSQL's pg_type.dat: type, width, kind. -/
def fixedTypes : List (Nat × Nat × Kind) :=
  [(16, 1, .uint), (18, 1, .uint), (21, 2, .sint), (23, 4, .sint), (1082, 4, .sint),
   (26, 4, .uint), (700, 4, .float), (20, 8, .sint), (1083, 8, .sint), (1114, 8, .sint),
   (1184, 8, .sint), (790, 8, .sint), (701, 8, .float), (829, 6, .raw), (774, 8, .raw),
   (2950, 16, .raw)]

/-- `o_pk_fixed_lookup`, bitmap_scan.c:307-316. -/
def fixedLookup (oid : Nat) : Option (Nat × Kind) :=
  (fixedTypes.find? (fun t => t.1 == oid)).map (·.2)

/-- A `Datum`: 64 bits, or a pointer to bytes. -/
inductive Datum where
  | num (n : Nat)
  | ptr (bytes : List Nat)
deriving DecidableEq, Repr

/-- Outcome of a call: a result, `ereport(ERROR)`, or undefined behaviour.
Auxiliary of the model, without counterpart in /repo. -/
inductive R (α : Type) where
  | ok (a : α)
  | error
  | undef
deriving DecidableEq, Repr

/-- Sequencing.  Auxiliary of the model, without counterpart in /repo. -/
def R.bind {α β : Type} : R α → (α → R β) → R β
  | .ok a, f => f a
  | .error, _ => .error
  | .undef, _ => .undef

/-- The loop that writes `u` most significant byte first, bitmap_scan.c:498-502. -/
def be : Nat → Nat → List Nat
  | 0, _ => []
  | w + 1, u => be w (u >>> 8) ++ [u % 256]

/-- `OKBM_SIGNBIT16`, `OKBM_SIGNBIT32`, `OKBM_SIGNBIT64`, bitmap_scan.c:398-400. -/
def signBit (w : Nat) : Nat := if w = 2 then 32768 else if w = 4 then 2147483648 else HIGH

/-- `OKBM_FLOAT4_NAN`, `OKBM_FLOAT8_NAN`, bitmap_scan.c:402-403. -/
def nanBits (w : Nat) : Nat := if w = 4 then 0x7fc00000 else 0x7ff8000000000000

/-- `PG_UINT32_MAX`, `PG_UINT64_MAX`. -/
def allOnes (w : Nat) : Nat := if w = 4 then 4294967295 else 18446744073709551615

/-- `isnan`: exponent all ones and mantissa not zero (IEEE 754 binary32, binary64). -/
def isNan (w bits : Nat) : Bool :=
  if w = 4 then decide (bits % 2147483648 > 0x7f800000)
  else decide (bits % 9223372036854775808 > 0x7ff0000000000000)

/-- Comparison with zero: all bits but the sign are zero (IEEE 754). -/
def isZero (w bits : Nat) : Bool :=
  if w = 4 then bits % 2147483648 == 0 else bits % 9223372036854775808 == 0

/-- The bits of a float after the transformation, bitmap_scan.c:468-495. -/
def floatBits (w bits : Nat) : Nat :=
  let bits := if isNan w bits then nanBits w else if isZero w bits then 0 else bits
  bits ^^^ (if bits &&& signBit w ≠ 0 then allOnes w else signBit w)

/-- The unsigned number that is written, bitmap_scan.c:421-497, for the three kinds
that are passed by value; `n` is the `Datum`. -/
def encodeNum (w : Nat) (kind : Kind) (n : Nat) : Nat :=
  match kind with
  | .uint => if w = 1 then n % 256 else n % 4294967296
  | .sint =>
    if w = 2 then (n % 65536) ^^^ signBit 2
    else if w = 4 then (n % 4294967296) ^^^ signBit 4
    else (n % 18446744073709551616) ^^^ signBit 8
  | .float =>
    if w = 4 then floatBits 4 (n % 4294967296) else floatBits 8 (n % 18446744073709551616)
  | .raw => 0

/-- `o_pk_encode_one`, bitmap_scan.c:409-504.  Following a `Datum` that is not a
pointer, reading more bytes than it points to, or using the bits of a pointer as a
number is undefined. -/
def encodeOne (d : Datum) (oid : Nat) : R (List Nat) :=
  match fixedLookup oid with
  | none => .error
  | some (w, .raw) =>
    match d with
    | .ptr bytes => if bytes.length < w then .undef else .ok (bytes.take w)
    | .num _ => .undef
  | some (w, kind) =>
    match d with
    | .num n => .ok (be w (encodeNum w kind n))
    | .ptr _ => .undef

/-- `Int16GetDatum((int16) x)`, `Int32GetDatum((int32) x)`: the sign bit `half` is copied
into the upper bits of the `Datum` (bitmap_scan.c:537, 539). -/
def signExtend (half n : Nat) : Nat :=
  if n < half then n else n + (18446744073709551616 - 2 * half)

/-- `o_pk_decode_one`, bitmap_scan.c:506-576, of exactly the bytes of the column. -/
def decodeOne (bytes : List Nat) (oid : Nat) : R Datum :=
  match fixedLookup oid with
  | none => .error
  | some (w, kind) =>
    let u := bytes.foldl (fun u b => (u <<< 8) % 18446744073709551616 ||| b) 0
    match kind with
    | .raw => .ok (.ptr bytes)
    | .uint => .ok (.num (if w = 1 then u % 256 else u % 4294967296))
    | .sint =>
      if w = 2 then .ok (.num (signExtend 32768 ((u ^^^ signBit 2) % 65536)))
      else if w = 4 then .ok (.num (signExtend 2147483648 ((u ^^^ signBit 4) % 4294967296)))
      else .ok (.num (u ^^^ signBit 8))
    | .float =>
      if w = 4 then
        let bits := u % 4294967296
        .ok (.num (bits ^^^ (if bits &&& signBit 4 ≠ 0 then signBit 4 else allOnes 4)))
      else .ok (.num (u ^^^ (if u &&& signBit 8 ≠ 0 then signBit 8 else allOnes 8)))

/-! ## Fixed-key mode: composite keys -/

/-- `OKBM_FIXED_BYTES`, include/tableam/bitmap_scan.h:62. -/
def FIXED_BYTES : Nat := 24

/-- `o_pk_fixed_width`, bitmap_scan.c:318-325. -/
def fixedWidth (oid : Nat) : Int :=
  match fixedLookup oid with
  | none => -1
  | some (w, _) => w

/-- The `len` computed by the first loops, bitmap_scan.c:595-604, 628-633, 675-680. -/
def keyLen (types : List Nat) : Int := types.foldl (fun n t => n + fixedWidth t) 0

/-- `memcpy` or the byte loop into the buffer at an offset; outside the buffer it is
undefined.  src/tableam/bitmap_scan.c:425, 606-644. -/
def writeAt (buf : List Nat) (off : Int) (bytes : List Nat) : R (List Nat) :=
  if off < 0 ∨ off + bytes.length > buf.length then .undef
  else .ok (buf.take off.toNat ++ bytes ++ buf.drop (off.toNat + bytes.length))

/-- The second loop of `o_pk_encode_leaf` and `o_pk_encode_nonleaf`,
bitmap_scan.c:608-615, 637-644. -/
def encodeCols : List (Datum × Nat) → Int → List Nat → R (List Nat)
  | [], _, buf => .ok buf
  | (d, t) :: rest, off, buf =>
    (encodeOne d t).bind fun bytes =>
      (writeAt buf off bytes).bind fun buf => encodeCols rest (off + bytes.length) buf

/-- The common part of `o_pk_encode_leaf` (bitmap_scan.c:583-616) and
`o_pk_encode_nonleaf` (619-645): values and the types used for them. -/
def encodeKey (cols : List (Datum × Nat)) : R (List Nat) :=
  encodeCols cols ((FIXED_BYTES : Int) - keyLen (cols.map (·.2))) (List.replicate FIXED_BYTES 0)

/-- The loop of `o_pk_decode_to_key`, bitmap_scan.c:682-690; the key columns only.
Simplification: forming the tuple (692-697) is left out. -/
def decodeCols : List Nat → Int → List Nat → R (List Datum)
  | [], _, _ => .ok []
  | t :: rest, off, key =>
    match fixedLookup t with
    | none => .error
    | some (w, _) =>
      if off < 0 ∨ off + w > key.length then .undef
      else
        (decodeOne ((key.drop off.toNat).take w) t).bind fun d =>
          (decodeCols rest (off + w) key).bind fun ds => .ok (d :: ds)

/-- `o_pk_decode_to_key`, bitmap_scan.c:647-698. -/
def decodeKey (types : List Nat) (key : List Nat) : R (List Datum) :=
  decodeCols types ((FIXED_BYTES : Int) - keyLen types) key

/-- The fixed-key part of `o_keybitmap_pk_mode`, bitmap_scan.c:369-388: the types of
the key columns are all in the table and fit. -/
def fixedMode (types : List Nat) : Bool :=
  types.all (fun t => (fixedLookup t).isSome) && decide (0 < keyLen types) &&
    decide (keyLen types ≤ FIXED_BYTES)

/-! ## The callbacks of the tree scan -/

/-- `o_bitmap_is_range_valid` (bitmap_scan.c:1802-1840), 64-bit mode; `none` is a page
without lower or upper bound. -/
def pageWanted (bm : Bm) (low high : Option KeyVal) : Bm × Option Bool :=
  rangeIsValid bm (match low with | some l => valGetUint64 l | none => 0)
    (match high with | some h => valGetUint64 h | none => 18446744073709551615)

/-- `o_bitmap_is_range_valid`, fixed-key mode; the bounds are encoded keys.
src/tableam/bitmap_scan.c:1802-1840. -/
def pageWantedF (bm : Fm) (low high : Option (List Nat)) : Fm × Option Bool :=
  rangeIsValidF bm (match low with | some l => l | none => List.replicate FIXED_BYTES 0)
    (match high with | some h => h | none => List.replicate FIXED_BYTES 255)

/-- `o_bitmap_get_next_key` (bitmap_scan.c:1854-1945), 64-bit mode, up to the decoding
of the result. -/
def nextWanted (bm : Bm) (pos : Option KeyVal) (inclusive : Bool) : Bm × Option (Option Nat) :=
  match pos with
  | none => getNext bm 0
  | some p =>
    if inclusive then getNext bm (valGetUint64 p)
    else if valGetUint64 p = 18446744073709551615 then (bm, some none)
    else getNext bm (valGetUint64 p + 1)

/-- The loop `++prevKey[i] != 0`, bitmap_scan.c:1885-1887, from the last byte; `none`
is `i < 0`.  The list is the key backwards. -/
def incBytes : List Nat → Option (List Nat)
  | [] => none
  | b :: rest =>
    if (b + 1) % 256 ≠ 0 then some ((b + 1) % 256 :: rest)
    else (incBytes rest).map ((b + 1) % 256 :: ·)

/-- `o_bitmap_get_next_key`, fixed-key mode, up to the decoding of the result.
src/tableam/bitmap_scan.c:1854-1945. -/
def nextWantedF (bm : Fm) (pos : Option (List Nat)) (inclusive : Bool) :
    Fm × Option (Option (List Nat)) :=
  match pos with
  | none => getNextF bm (List.replicate FIXED_BYTES 0)
  | some p =>
    if inclusive then getNextF bm p
    else
      match incBytes p.reverse with
      | none => (bm, some none)
      | some q => getNextF bm q.reverse

/-! ## Secondary indexes -/

/-- `OTableIndexField` with the type of its column, include/catalog/o_tables.h:52-60 and
o_indices.c:499-504; `none` is an expression. -/
structure Field where
  attnum : Option Nat
  opclass : Nat
  typ : Nat
deriving DecidableEq, Repr

/-- `find_existing_field`, o_indices.c:342-357: 0-based position. -/
def findExisting (leaf : List Field) (f : Field) : Option Nat :=
  leaf.findIdx? (fun g => f.attnum.isSome && f.attnum == g.attnum && f.opclass == g.opclass)

/-- The loop of `add_index_fields` without `fillPrimary`, o_indices.c:476-514.
Simplification: the list of duplicates and the counts of key and included columns,
which are not used here, are left out. -/
def addFields : List Field → List Field → List Field
  | leaf, [] => leaf
  | leaf, f :: rest =>
    match findExisting leaf f with
    | some _ => addFields leaf rest
    | none => addFields (leaf ++ [f]) rest

/-- The same loop with `fillPrimary`: the columns of the leaf tuple and
`primaryFieldsAttnums` (1-based). -/
def addPrimary : List Field → List Nat → List Field → List Field × List Nat
  | leaf, atts, [] => (leaf, atts)
  | leaf, atts, f :: rest =>
    match findExisting leaf f with
    | some i => addPrimary leaf (atts ++ [i + 1]) rest
    | none => addPrimary (leaf ++ [f]) (atts ++ [leaf.length + 1]) rest

/-- `make_secondary_o_index` (o_indices.c:528-606) for a table with primary key `pk`:
leaf columns and positions of the primary key among them. -/
def secondary (ix pk : List Field) : List Field × List Nat :=
  addPrimary (addFields [] ix) [] pk

/-- The values and types `o_pk_encode_leaf` uses for a secondary index,
bitmap_scan.c:595-614: the value comes from `primaryFieldsAttnums[i]`, the type from
column `pk_from + i`.  `vals` are the columns of the leaf tuple. -/
def leafCols (leaf : List Field) (atts : List Nat) (vals : List Datum) :
    Option (List (Datum × Nat)) :=
  (List.range atts.length).mapM fun i => do
    let a ← atts[i]?
    let d ← vals[a - 1]?
    let t ← leaf[leaf.length - atts.length + i]?
    some (d, t.typ)

/-- `o_pk_encode_leaf` for a secondary index, bitmap_scan.c:583-616. -/
def encodeSecondary (ix pk : List Field) (vals : List Datum) : R (List Nat) :=
  match leafCols (secondary ix pk).1 (secondary ix pk).2 vals with
  | none => .undef
  | some cols => encodeKey cols

/-- `o_pk_encode_leaf` for the primary index and `o_pk_encode_nonleaf`,
bitmap_scan.c:598, 619-645: value and type of the same column. -/
def encodePrimary (pk : List Field) (vals : List Datum) : R (List Nat) :=
  encodeKey (vals.zip (pk.map (·.typ)))

end Verif.KeyBitmap
