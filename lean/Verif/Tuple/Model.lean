/-!
# Tuple format

Model of src/tuple/format.c and of the macros of include/tuple/format.h.

Bytes are natural numbers below 256, numbers are stored least significant byte first
(little-endian machine).  `tuple.data` is `MAXALIGN`ed, so aligning a pointer into the
tuple is aligning its offset.  The 8 bytes of `OTupleHeaderData` (format.h:31-37) are
kept as a record; `body` is the memory after them, or all of the tuple in the fixed
format.
-/

namespace Verif.Tuple

/-- Outcome of a call: a result, `elog(ERROR)`, or undefined behaviour (memory outside
an object, a number used as a pointer).  Auxiliary of the model, without counterpart in /repo. -/
inductive R (α : Type) where
  | ok (a : α)
  | error
  | undef
deriving DecidableEq, Repr

/-- Sequencing.  Auxiliary of the model, without counterpart in /repo. -/
def R.bind {α β : Type} : R α → (α → R β) → R β
  | .ok a, f => f a
  | .error, _ => .error
  | .undef, _ => .undef

/-- Value of an `Option`; `none` is undefined behaviour.
Auxiliary of the model, without counterpart in /repo. -/
def R.get {α : Type} : Option α → R α
  | some a => .ok a
  | none => .undef

/-- A `Datum`: a number, a pointer to memory, or a pointer to an expanded object, given
by the bytes `EOH_flatten_into` produces.
PostgreSQL; expanded objects: src/tuple/format.c:733-760. -/
inductive Datum where
  | num (n : Nat)
  | ptr (bytes : List Nat)
  | expanded (flat : List Nat)
deriving DecidableEq, Repr

/-- `FormData_pg_attribute` / `CompactAttribute`: `attlen`, `attbyval`, alignment in
bytes, `attstorage != 'p'` (format.c:26-31), and the missing value if the column has one
(`atthasmissing`, format.c:128-135).  `attcacheoff` is kept apart. -/
structure Attr where
  len : Int
  byval : Bool
  align : Nat
  packable : Bool
  missing : Option Datum
deriving DecidableEq, Repr

/-- `att_align_nominal` (PostgreSQL access/tupmacs.h); the alignments are powers of
two.  Used at src/tuple/format.c:79, 92, 483, 723. -/
def alignUp (off a : Nat) : Nat := (off + (a - 1)) / a * a

/-- `MAXALIGN`.  Used at src/tuple/format.c:50, 539, 602. -/
def maxAlign (n : Nat) : Nat := (n + 7) / 8 * 8

/-- `BITMAPLEN` (PostgreSQL access/htup_details.h).  Used at src/tuple/format.c:50, 539, 602. -/
def bitmapLen (n : Nat) : Nat := (n + 7) / 8

/-- A number as bytes.  Auxiliary of the model, without counterpart in /repo. -/
def le : Nat → Nat → List Nat
  | 0, _ => []
  | w + 1, n => n % 256 :: le w (n / 256)

/-- Bytes as a number.  Auxiliary of the model, without counterpart in /repo. -/
def fromLe : List Nat → Nat
  | [] => 0
  | b :: rest => b + 256 * fromLe rest

/-! ## Varlenas (PostgreSQL varatt.h) -/

/-- `VARSIZE_4B`: upper 30 bits of the header. -/
def size4 (b : List Nat) : Nat := fromLe (b.take 4) / 4

/-- `VARATT_CAN_MAKE_SHORT`; the subtraction of the header wraps for a length below 4,
which is then too long. -/
def canShort (b : List Nat) : Bool :=
  decide (4 ≤ b.length) && b.headD 0 % 4 == 0 && decide (4 ≤ size4 b) && decide (size4 b - 4 + 1 ≤ 127)

/-- `VARSIZE_EXTERNAL`: 2 bytes and the size for the tag (indirect, expanded, on disk).
Simplification: the tag added for OrioleDB values is not listed; such values are not
written into tuples as they are. -/
def sizeExt (b : List Nat) : Option Nat :=
  match b[1]? with
  | some 1 => some 10
  | some 2 => some 10
  | some 3 => some 10
  | some 18 => some 18
  | _ => none

/-- `VARSIZE_ANY`; `none` if the header is not there.
Used by `o_att_addlength` of src/tuple/format.c:92-115. -/
def varSize (b : List Nat) : Option Nat :=
  match b with
  | [] => none
  | h :: _ =>
    if h = 1 then sizeExt b
    else if h % 2 = 1 then some (h / 2)
    else if b.length < 4 then none else some (size4 b)

/-- `strlen`; `none` if there is no terminator.  Used at src/tuple/format.c:781. -/
def strLen : List Nat → Option Nat
  | [] => none
  | 0 :: _ => some 0
  | _ :: rest => (strLen rest).map (· + 1)

/-- `memcpy` of `n` bytes from a pointer.  src/tuple/format.c:689, 751-790. -/
def copy (b : List Nat) (n : Nat) : R (List Nat) := if b.length < n then .undef else .ok (b.take n)

/-! ## Forming a tuple -/

/-- The fields of `OToastValue` (include/tuple/toast.h:54-64) after the marker byte.
Simplification: their computation from the value (format.c:664-686) is not modelled. -/
structure Toast where
  compression : Nat
  rawSize : Nat
  size : Nat
deriving DecidableEq, Repr

/-- `sizeof(OToastValue)`.  include/tuple/toast.h:54-64. -/
def TOAST_SIZE : Nat := 12

/-- The bytes of an `OToastValue`: marker, compression, padding (zeroed by `memset`,
format.c:662), two 32-bit numbers. -/
def Toast.bytes (t : Toast) : List Nat :=
  [1, t.compression % 256, 0, 0] ++ le 4 t.rawSize ++ le 4 t.size

/-- A column to be stored: `isnull`, whether `to_toast` is `ORIOLEDB_TO_TOAST_ON`, and
the value.  Arguments of src/tuple/format.c:425-427. -/
structure Col where
  null : Bool
  toast : Option Toast
  val : Datum
deriving DecidableEq, Repr

/-- `BridgeData`, format.h:50-56; `attnum` 0 is `InvalidAttrNumber`. -/
structure Bridge where
  isPkey : Bool
  iptr : List Nat
  attnum : Nat
deriving DecidableEq, Repr

/-- The arguments of `o_new_tuple_size` and `o_tuple_fill`, format.c:498-501, 556-560;
`vals` holds `values`, `isnull` and `to_toast`. -/
structure Input where
  iptr : Option (List Nat)
  bridge : Option Bridge
  version : Nat
  vals : List Col
deriving DecidableEq, Repr

/-- `OTupleFixedFormatSpec`, format.h:41-45: two 16-bit numbers. -/
structure Spec where
  natts : Nat
  len : Nat
deriving DecidableEq, Repr

/-- `fillFixedFormatSpec`, src/catalog/o_indices.c:1168-1192: the columns before the first
one of variable length, among the first `natts`; the results are stored in 16 bits. -/
def specLoop : List Attr → Nat → Nat → Spec
  | [], i, len => ⟨i % 65536, len % 65536⟩
  | a :: rest, i, len =>
    if a.len ≤ 0 then ⟨i % 65536, len % 65536⟩ else specLoop rest (i + 1) (alignUp len a.align + a.len.toNat)

/-- `fillFixedFormatSpec`; `natts` is `primary_init_nfields` or the number of columns.
src/catalog/o_indices.c:1168-1192. -/
def fixedSpec (desc : List Attr) (natts : Nat) : Spec := specLoop (desc.take natts) 0 0

/-- `has_bridge_ctid`, format.c:430, 508, 573. -/
def Input.hasBridge (inp : Input) : Bool :=
  match inp.bridge with
  | none => false
  | some b => b.attnum != 0

/-- `ctid_off` of `o_new_tuple_size` and `o_tuple_compute_data_size`, format.c:434-437,
513-516. -/
def Input.ctidOff (inp : Input) : Nat :=
  (if inp.iptr.isSome then 1 else 0) +
    (if inp.hasBridge && (inp.bridge.map (·.isPkey)).getD false then 1 else 0)

/-- `ctid_off` of `o_tuple_fill`, format.c:575-578: does not look at `attnum`. -/
def Input.ctidOffFill (inp : Input) : Nat :=
  (if inp.iptr.isSome then 1 else 0) + (if (inp.bridge.map (·.isPkey)).getD false then 1 else 0)

/-- The source of column `i`, format.c:444-464, 638-656: the row identifier, the bridge
identifier, or an element of the arrays. -/
def Input.col (inp : Input) (ctidOff i : Nat) : R Col :=
  match i, inp.iptr with
  | 0, some p => .ok ⟨false, none, .ptr p⟩
  | _, _ =>
    match inp.bridge with
    | some b =>
      if b.attnum ≠ 0 ∧ i = b.attnum - 1 then .ok ⟨false, none, .ptr b.iptr⟩
      else if i < ctidOff then .undef else R.get inp.vals[i - ctidOff]?
    | none => if i < ctidOff then .undef else R.get inp.vals[i - ctidOff]?

/-- The loop over the columns from `i` on that sets `fixedFormat` and `hasnull`,
format.c:521-530, 583-592; `n` columns are left. -/
def nullLoop (inp : Input) (ctidOff : Nat) (spec : Spec) : Nat → Nat → Bool × Bool → R (Bool × Bool)
  | 0, _, s => .ok s
  | n + 1, i, (fixed, hasnull) =>
    (R.get inp.vals[i - ctidOff]?).bind fun c =>
      nullLoop inp ctidOff spec n (i + 1)
        (if c.null then (false, true) else if i ≥ spec.natts then (false, hasnull) else (fixed, hasnull))

/-- `fixedFormat` and `hasnull` for `natts` columns.  src/tuple/format.c:499-540. -/
def formats (inp : Input) (ctidOff : Nat) (spec : Spec) (natts : Nat) : R (Bool × Bool) :=
  nullLoop inp ctidOff spec (natts - ctidOff) ctidOff (inp.version == 0, false)

/-- `att_addlength_datum` (tupmacs.h): the size of a value.  src/tuple/format.c:490. -/
def addLength (a : Attr) (d : Datum) : R Nat :=
  if a.len > 0 then .ok a.len.toNat
  else
    match d with
    | .ptr b => if a.len = -1 then R.get (varSize b) else R.get ((strLen b).map (· + 1))
    | .expanded _ => .undef
    | .num _ => .undef

/-- `att_align_datum` (tupmacs.h): no alignment for values with a short header.
src/tuple/format.c:488. -/
def alignDatum (a : Attr) (off : Nat) (d : Datum) : R Nat :=
  if a.len = -1 then
    match d with
    | .ptr (h :: _) => .ok (if h % 2 = 1 then off else alignUp off a.align)
    | .expanded _ => .ok off
    | _ => .undef
  else .ok (alignUp off a.align)

/-- The size of a value that is not made short, format.c:488-491. -/
def sizePlain (a : Attr) (d : Datum) (off : Nat) : R Nat :=
  (alignDatum a off d).bind fun o => (addLength a d).bind fun n => .ok (o + n)

/-- One round of `o_tuple_compute_data_size`, format.c:452-492.  Simplification: an
expanded object is only looked at as a varlena. -/
def sizeCol (a : Attr) (c : Col) (off : Nat) : R Nat :=
  match c.toast with
  | some _ => .ok (off + TOAST_SIZE)
  | none =>
    if c.null then .ok off
    else
      match c.val with
      | .expanded flat => if a.len = -1 then .ok (alignUp off a.align + flat.length) else .undef
      | .ptr b =>
        if a.len = -1 && a.packable && canShort b then .ok (off + (size4 b - 4 + 1))
        else sizePlain a (.ptr b) off
      | .num n => sizePlain a (.num n) off

/-- The loop of `o_tuple_compute_data_size`, format.c:424-496, over the columns from `i`
on. -/
def sizeLoop (inp : Input) : List Attr → Nat → Nat → R Nat
  | [], _, off => .ok off
  | a :: rest, i, off =>
    (inp.col inp.ctidOff i).bind fun c => (sizeCol a c off).bind fun o => sizeLoop inp rest (i + 1) o

/-- `SizeOfOTupleHeader`.  include/tuple/format.h:31-37, 48. -/
def HEADER : Nat := 8

/-- `o_new_tuple_size`, format.c:498-551. -/
def newTupleSize (desc : List Attr) (spec : Spec) (inp : Input) : R Nat :=
  (formats inp inp.ctidOff spec desc.length).bind fun (fixed, hasnull) =>
    (sizeLoop inp (if fixed then desc.take spec.natts else desc) 0 0).bind fun n =>
      .ok ((if fixed then 0 else HEADER + if hasnull then maxAlign (bitmapLen desc.length) else 0) + n)

/-- `data`: the memory and the position in it.  src/tuple/format.c:557-795. -/
structure W where
  pos : Nat
  buf : List Nat
deriving DecidableEq, Repr

/-- Aligning `data`.  src/tuple/format.c:557-795. -/
def W.align (w : W) (a : Nat) : W := { w with pos := alignUp w.pos a }

/-- Writing at `data` without moving it.  src/tuple/format.c:557-795. -/
def W.write (w : W) (bytes : List Nat) : R W :=
  if w.pos + bytes.length > w.buf.length then .undef
  else .ok { w with buf := w.buf.take w.pos ++ bytes ++ w.buf.drop (w.pos + bytes.length) }

/-- Writing and `data += data_length`.  src/tuple/format.c:557-795. -/
def W.put (w : W) (bytes : List Nat) : R W :=
  (w.write bytes).bind fun w => .ok { w with pos := w.pos + bytes.length }

/-- Storing one value, format.c:716-793; `store_att_byval` refuses other lengths. -/
def putVal (a : Attr) (d : Datum) (w : W) : R W :=
  if a.byval then
    match d with
    | .num n =>
      if a.len = 1 ∨ a.len = 2 ∨ a.len = 4 ∨ a.len = 8 then (w.align a.align).put (le a.len.toNat n)
      else .error
    | _ => .undef
  else if a.len = -1 then
    match d with
    | .expanded flat => (w.align a.align).put flat
    | .ptr [] => .undef
    | .ptr (h :: t) =>
      if h = 1 then (R.get (sizeExt (h :: t))).bind fun n => (copy (h :: t) n).bind fun s => w.put s
      else if h % 2 = 1 then (copy (h :: t) (h / 2)).bind fun s => w.put s
      else if (h :: t).length < 4 then .undef
      else if a.packable && canShort (h :: t) then
        (copy ((h :: t).drop 4) (size4 (h :: t) - 4)).bind fun s =>
          w.put ((2 * (size4 (h :: t) - 4 + 1) + 1) % 256 :: s)
      else (copy (h :: t) (size4 (h :: t))).bind fun s => (w.align a.align).put s
    | .num _ => .undef
  else if a.len = -2 then
    match d with
    | .ptr b => (R.get (strLen b)).bind fun n => (copy b (n + 1)).bind fun s => w.put s
    | _ => .undef
  else
    match d with
    | .ptr b => (copy b a.len.toNat).bind fun s => (w.align a.align).put s
    | _ => .undef

/-- The null bitmap while it is written: finished bytes backwards, and `bitmask`.
src/tuple/format.c:557-660. -/
structure Bits where
  rev : List Nat
  mask : Nat
deriving DecidableEq, Repr

/-- One step, format.c:694-706: next bit, set unless the column is null. -/
def Bits.step (b : Bits) (null : Bool) : Bits :=
  let b : Bits := if b.mask ≠ 128 then ⟨b.rev, b.mask <<< 1⟩ else ⟨0 :: b.rev, 1⟩
  if null then b
  else
    match b.rev with
    | [] => b
    | x :: rest => ⟨(x ||| b.mask) :: rest, b.mask⟩

/-- One round of the loop of `o_tuple_fill`, format.c:630-794: the toast value is written
before the test for null, and the position moves after it. -/
def fillCol (hasnull : Bool) (a : Attr) (c : Col) (w : W) (bits : Bits) : R (W × Bits) :=
  (match c.toast with
    | some t => w.write t.bytes
    | none => .ok w).bind fun w =>
  if hasnull && c.null then .ok (w, bits.step true)
  else
    let bits := if hasnull then bits.step false else bits
    match c.toast with
    | some _ => .ok ({ w with pos := w.pos + TOAST_SIZE }, bits)
    | none => (putVal a c.val w).bind fun w => .ok (w, bits)

/-- The loop of `o_tuple_fill`, format.c:630-794. -/
def fillLoop (inp : Input) (hasnull : Bool) : List Attr → Nat → W → Bits → R (W × Bits)
  | [], _, w, bits => .ok (w, bits)
  | a :: rest, i, w, bits =>
    (inp.col inp.ctidOffFill i).bind fun c =>
      (fillCol hasnull a c w bits).bind fun (w, bits) => fillLoop inp hasnull rest (i + 1) w bits

/-- `OTupleHeaderData`, format.h:31-37. -/
structure Header where
  hasnulls : Bool
  len : Nat
  natts : Nat
  version : Nat
deriving DecidableEq, Repr

/-- `OTuple` (format flag) with the memory it points to; `hdr` is not used in the fixed
format.  include/btree/btree.h:170-174, include/tuple/format.h:31-37. -/
structure Tuple where
  fixed : Bool
  hdr : Header
  body : List Nat
deriving DecidableEq, Repr

/-- `l` followed by zeros up to `n` bytes.  Auxiliary of the model, without counterpart in /repo. -/
def pad (l : List Nat) (n : Nat) : List Nat := l ++ List.replicate (n - l.length) 0

/-- `o_tuple_fill`, format.c:556-797, into zeroed memory of `size` bytes.  The length is
kept in 15 bits, the number of columns in 16.  Also returns the number of bytes between
the beginning of the tuple and `data` at the end, which the last `Assert` compares with
`size`. -/
def fill (desc : List Attr) (spec : Spec) (inp : Input) (size : Nat) : R (Tuple × Nat) :=
  (formats inp inp.ctidOffFill spec desc.length).bind fun (fixed, hasnull) =>
    if fixed then
      (fillLoop inp false (desc.take spec.natts) 0 ⟨0, List.replicate size 0⟩ ⟨[], 0⟩).bind fun (w, _) =>
        .ok (⟨true, ⟨false, 0, 0, 0⟩, w.buf⟩, w.pos)
    else
      let bm := if hasnull then maxAlign (bitmapLen desc.length) else 0
      if size < HEADER + bm then .undef
      else
        (fillLoop inp hasnull desc 0 ⟨0, List.replicate (size - HEADER - bm) 0⟩ ⟨[], 128⟩).bind
          fun (w, bits) =>
            .ok (⟨false, ⟨hasnull, size % 32768, desc.length % 65536, inp.version⟩,
              (if hasnull then pad bits.rev.reverse bm else []) ++ w.buf⟩, HEADER + bm + w.pos)

/-- `o_form_tuple` (format.c:799-811) and, with identifiers and toasted columns,
`tts_orioledb_form_tuple` (src/tuple/slot.c:1562-1570) and
`tts_orioledb_form_orphan_tuple` (src/tuple/slot.c:1616-1624). -/
def form (desc : List Attr) (spec : Spec) (inp : Input) : R Tuple :=
  (newTupleSize desc spec inp).bind fun size => (fill desc spec inp size).bind fun (t, _) => .ok t

/-- `o_tuple_size`, format.h:185-195. -/
def tupleSize (t : Tuple) (spec : Spec) : Nat := if t.fixed then spec.len else t.hdr.len

/-- `o_tuple_get_version`, format.c:814-821. -/
def getVersion (t : Tuple) : Nat := if t.fixed then 0 else t.hdr.version

/-- `o_tuple_set_version`, format.c:823-855; the copy of `spec->len` bytes is undefined
if there are fewer. -/
def setVersion (spec : Spec) (t : Tuple) (version : Nat) : R Tuple :=
  if t.fixed then
    if version = 0 then .ok t
    else
      (copy t.body spec.len).bind fun b =>
        .ok ⟨false, ⟨false, (HEADER + spec.len) % 32768, spec.natts, version⟩, b⟩
  else if version = 0 && !t.hdr.hasnulls && t.hdr.natts == spec.natts then
    (copy t.body spec.len).bind fun b => .ok ⟨true, ⟨false, 0, 0, 0⟩, b⟩
  else .ok { t with hdr := { t.hdr with version := version } }

/-- `o_tuple_set_ctid`, format.c:857-875; `iptr` is the 6 bytes of the identifier. -/
def setCtid (t : Tuple) (iptr : List Nat) : R Tuple :=
  let off := if !t.fixed && t.hdr.hasnulls then maxAlign (bitmapLen t.hdr.natts) else 0
  (W.write ⟨off, t.body⟩ iptr).bind fun w => .ok { t with body := w.buf }

/-- `o_btree_check_size_of_tuple(o_tuple_size(...))`, src/btree/btree.c:253-264 (called at
src/tableam/operations.c:469, src/catalog/indices.c:1841 and others): whether the tuple is
accepted, for the limit `O_BTREE_MAX_TUPLE_SIZE` (include/btree/page_contents.h:327). -/
def sizeAccepted (limit : Nat) (t : Tuple) (spec : Spec) : Bool := !decide (tupleSize t spec > limit)

/-! ## Reading -/

/-- What a read returns: a number, a pointer into the tuple (the bytes from there on), or
the missing value of the column.  src/tuple/format.c:120-155. -/
inductive Read where
  | num (n : Nat)
  | ptr (rest : List Nat)
  | missing (d : Datum)
deriving DecidableEq, Repr

/-- The cached offsets of the columns; `none` is -1. -/
abbrev Caches := List (Option Nat)

/-- `OTupleReaderState`, format.h:19-29, without the descriptor. -/
structure Reader where
  bp : List Nat
  tp : List Nat
  off : Nat
  attnum : Nat
  natts : Nat
  hasnulls : Bool
  slow : Bool
deriving DecidableEq, Repr

/-- `o_tuple_init_reader`, format.c:33-65. -/
def initReader (t : Tuple) (spec : Spec) : Reader :=
  if t.fixed then ⟨[], t.body, 0, 0, spec.natts, false, false⟩
  else if t.hdr.hasnulls then
    ⟨t.body, t.body.drop (maxAlign (bitmapLen t.hdr.natts)), 0, 0, t.hdr.natts, true, false⟩
  else ⟨[], t.body, 0, 0, t.hdr.natts, false, false⟩

/-- `att_isnull` (tupmacs.h).  src/tuple/format.c:144, 166. -/
def isNull (i : Nat) (bp : List Nat) : R Bool :=
  (R.get bp[i >>> 3]?).bind fun b => .ok ((b &&& (1 <<< (i &&& 7))) == 0)

/-- `att_addlength_pointer`, or the size of an `OToastValue`, format.c:99-109. -/
def fieldLength (a : Attr) (mem : List Nat) : R Nat :=
  if !a.byval && decide (a.len < 0) then
    (R.get mem[0]?).bind fun h => if h = 1 then .ok TOAST_SIZE else addLength a (.ptr mem)
  else addLength a (.ptr mem)

/-- `o_tuple_next_field_offset`, format.c:67-117, for column `s.attnum`. -/
def nextOffset (a : Attr) (s : Reader) (c : Caches) : R (Nat × Reader × Caches) :=
  (if !s.slow && (c.getD s.attnum none).isSome then
    R.ok ((c.getD s.attnum none).getD 0, s.slow, c)
  else if a.len = -1 then
    if !s.slow && s.off == alignUp s.off a.align then .ok (s.off, s.slow, c.set s.attnum (some s.off))
    else
      (R.get (s.tp.drop s.off)[0]?).bind fun h =>
        .ok (if h ≠ 0 then s.off else alignUp s.off a.align, true, c)
  else
    .ok (alignUp s.off a.align, s.slow,
      if !s.slow then c.set s.attnum (some (alignUp s.off a.align)) else c)).bind
  fun (off, slow, c) =>
    (fieldLength a (s.tp.drop off)).bind fun n =>
      .ok (off, { s with
        off := off + n, slow := slow || decide (a.len ≤ 0), attnum := s.attnum + 1 }, c)

/-- `fetchatt` (tupmacs.h).  Simplification: the upper bits of a small number are not
modelled.  src/tuple/format.c:155, 375. -/
def fetch (a : Attr) (mem : List Nat) : R Read :=
  if a.byval then
    if a.len = 1 ∨ a.len = 2 ∨ a.len = 4 ∨ a.len = 8 then
      (copy mem a.len.toNat).bind fun b => .ok (.num (fromLe b))
    else .error
  else .ok (.ptr mem)

/-- `o_tuple_read_next_field`, format.c:119-156; `none` is a null. -/
def readNext (desc : List Attr) (s : Reader) (c : Caches) : R (Option Read × Reader × Caches) :=
  (R.get desc[s.attnum]?).bind fun a =>
    if s.attnum ≥ s.natts then .ok (a.missing.map .missing, { s with attnum := s.attnum + 1 }, c)
    else
      (if s.hasnulls then isNull s.attnum s.bp else .ok false).bind fun null =>
        if null then .ok (none, { s with slow := true, attnum := s.attnum + 1 }, c)
        else
          (nextOffset a s c).bind fun (off, s', c) =>
            (fetch a (s.tp.drop off)).bind fun r => .ok (some r, s', c)

/-- Reading `n` columns one after the other, format.c:379-380 (also
`tts_orioledb_getsomeattrs`, src/tuple/slot.c:221). -/
def readMany (desc : List Attr) : Nat → Reader → Caches → R (List (Option Read) × Caches)
  | 0, _, c => .ok ([], c)
  | n + 1, s, c =>
    (readNext desc s c).bind fun (r, s, c) =>
      (readMany desc n s c).bind fun (rs, c) => .ok (r :: rs, c)

/-- Reading the first `n` columns of a tuple.  src/tuple/format.c:34-155. -/
def readTuple (desc : List Attr) (spec : Spec) (t : Tuple) (n : Nat) (c : Caches) :
    R (List (Option Read) × Caches) :=
  readMany desc n (initReader t spec) c

/-- The test for nulls before column `i`, format.c:339-357. -/
def nullBefore (bp : List Nat) (i : Nat) : R Bool :=
  (R.get bp[i >>> 3]?).bind fun b =>
    .ok ((255 - b) &&& ((1 <<< (i &&& 7)) - 1) != 0 || (bp.take (i >>> 3)).any (· != 255))

/-- `o_toast_nocachegetattr`, format.c:301-395, for the column with index `i`.
Simplification: the assertion at the end is not modelled. -/
def nocache (desc : List Attr) (spec : Spec) (t : Tuple) (i : Nat) (c : Caches) :
    R (Option Read × Caches) :=
  (R.get desc[i]?).bind fun a =>
  (if t.fixed then R.ok (false, t.body)
   else if t.hdr.hasnulls then
     (nullBefore t.body i).bind fun b => .ok (b, t.body.drop (maxAlign (bitmapLen t.hdr.natts)))
   else .ok (false, t.body)).bind fun (slow, tp) =>
  if !slow && (c.getD i none).isSome then
    (fetch a (tp.drop ((c.getD i none).getD 0))).bind fun r => .ok (some r, c)
  else
    (readTuple desc spec t (i + 1) c).bind fun (rs, c) => .ok ((rs.getLast?).getD none, c)

/-- `o_fastgetattr`, format.h:88-137, for the column with index `i`. -/
def fastGet (desc : List Attr) (spec : Spec) (t : Tuple) (i : Nat) (c : Caches) :
    R (Option Read × Caches) :=
  (R.get desc[i]?).bind fun a =>
  if t.fixed then
    if i < spec.natts then
      if (c.getD i none).isSome then
        (fetch a (t.body.drop ((c.getD i none).getD 0))).bind fun r => .ok (some r, c)
      else nocache desc spec t i c
    else .ok (none, c)
  else if !t.hdr.hasnulls then
    if (c.getD i none).isSome then
      (fetch a (t.body.drop ((c.getD i none).getD 0))).bind fun r => .ok (some r, c)
    else nocache desc spec t i c
  else
    (isNull i t.body).bind fun null => if null then .ok (none, c) else nocache desc spec t i c

/-- `o_tuple_get_last_iptr`, format.c:179-208; the result points into the tuple. -/
def lastIptr (desc : List Attr) (spec : Spec) (t : Tuple) : R (Option (List Nat)) :=
  if !t.fixed then
    (if t.hdr.hasnulls then isNull (desc.length - 1) t.body else .ok false).bind fun null =>
      if null then .ok none
      else if t.hdr.len < HEADER + 6 then .undef
      else .ok (some (t.body.drop (t.hdr.len - HEADER - 6)))
  else if spec.natts < desc.length then .ok none
  else if spec.len < 6 then .undef
  else .ok (some (t.body.drop (spec.len - 6)))

end Verif.Tuple
