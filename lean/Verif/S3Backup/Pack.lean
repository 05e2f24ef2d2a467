/-!
# Packs of small files in S3 mode (src/s3/checkpoint.c, orioledb_s3_loader.py)

The copy of PGDATA that a checkpoint puts into the bucket holds the files shorter than
`SMALL_FILE_THRESHOLD` in packs (`small_files_0`, `small_files_1`, …).  `flush_small_files` writes a pack, the
loader takes it apart.
-/

namespace Verif.S3Backup

/-- The bytes of a file, of a name (without the final NUL) or of a checksum. -/
abbrev Bytes := List UInt8

/-- `write_int` (src/s3/checkpoint.c:738-746): the four bytes of an `int`.  Simplified: little-endian machine. -/
def intBytes (v : Nat) : Bytes :=
  [UInt8.ofNat v, UInt8.ofNat (v / 256), UInt8.ofNat (v / 65536), UInt8.ofNat (v / 16777216)]

/-- `FileWrite` at an offset (used at src/s3/checkpoint.c:741, 751): bytes between the end of the file and the offset
become 0. -/
def writeAt (f : Bytes) (off : Nat) (b : Bytes) : Bytes :=
  f.take off ++ List.replicate (off - f.length) 0 ++ b ++ f.drop (off + b.length)

/-- A small file as a backup sees it: its path, its size as `lstat` gave it (src/s3/checkpoint.c:504, 612-613), its
contents when the checksum is taken (`read_file`, src/s3/checkpoint.c:870; `none` when it cannot be opened) and its
contents when the pack is written (`read_small_file`, src/s3/checkpoint.c:839). -/
structure SmallFile where
  name : Bytes
  size : Nat
  atSum : Option Bytes
  atFlush : Option Bytes
deriving DecidableEq, Repr

/-- `read_small_file` (src/s3/checkpoint.c:758-782): a buffer of `size` bytes from `palloc`, whose contents `garb`
are arbitrary; `FileRead` fills as much of it as the file has, a short read is not an error; `none` is the null
pointer returned when the file cannot be opened. -/
def readSmall (garb : Nat → UInt8) (f : SmallFile) : Option Bytes :=
  match f.atFlush with
  | none => none
  | some d => some (d.take f.size ++ (List.range (f.size - d.length)).map (fun i => garb (d.length + i)))

/-- The loop that writes the offsets and sizes (src/s3/checkpoint.c:817-826). -/
def writeTable : List SmallFile → (nameOff dataOff off : Nat) → Bytes → Bytes × Nat
  | [], _, _, off, file => (file, off)
  | f :: fs, nameOff, dataOff, off, file =>
    let file := writeAt file off (intBytes nameOff)
    let file := writeAt file (off + 4) (intBytes dataOff)
    let file := writeAt file (off + 8) (intBytes f.size)
    writeTable fs (nameOff + (f.name.length + 1)) (dataOff + f.size) (off + 12) file

/-- The loop that writes the names with their final NUL (src/s3/checkpoint.c:828-834). -/
def writeNames : List SmallFile → (off : Nat) → Bytes → Bytes × Nat
  | [], off, file => (file, off)
  | f :: fs, off, file => writeNames fs (off + (f.name.length + 1)) (writeAt file off (f.name ++ [0]))

/-- The loop that writes the contents (src/s3/checkpoint.c:836-843).  `none`: `write_data` was given the null
pointer and raised an error (writing 0 bytes from it is not an error). -/
def writeDatas (garb : Nat → UInt8) : List SmallFile → (off : Nat) → Bytes → Option Bytes
  | [], _, file => some file
  | f :: fs, off, file =>
    match readSmall garb f with
    | none => if f.size = 0 then writeDatas garb fs off file else none
    | some d => writeDatas garb fs (off + f.size) (writeAt file off d)

/-- `totalNamesLen` of `flush_small_files` (src/s3/checkpoint.c:797-798). -/
def namesLen : List SmallFile → Nat
  | [] => 0
  | f :: fs => f.name.length + 1 + namesLen fs

/-- `flush_small_files` (src/s3/checkpoint.c:784-859): the contents of the pack.  Simplified: the scheduling of the
upload is left out; offsets are unbounded (`int` in C; `C115_partial` shows that they stay below 2^20). -/
def flushSmall (garb : Nat → UInt8) (fs : List SmallFile) : Option Bytes :=
  let nameOff := 4 * (1 + 3 * fs.length)
  let dataOff := nameOff + namesLen fs
  let file := writeAt [] 0 (intBytes fs.length)
  let (file, off) := writeTable fs nameOff dataOff 4 file
  let (file, off) := writeNames fs off file
  writeDatas garb fs off file

/-! ## The loader -/

/-- `struct.unpack('i', data[off:off + 4])` (orioledb_s3_loader.py:277, 279-281): `none` is the exception for a slice
of another length.  Simplified: negative numbers give `none` as well. -/
def readInt (d : Bytes) (off : Nat) : Option Nat :=
  match (d.drop off).take 4 with
  | [a, b, c, e] =>
    let v := a.toNat + 256 * b.toNat + 65536 * c.toNat + 16777216 * e.toNat
    if v < 2147483648 then some v else none
  | _ => none

/-- `data[nameOffset:data.find(b'\0', nameOffset)].decode('ascii')` (orioledb_s3_loader.py:282-283): without a NUL
`find` gives -1, the slice then ends before the last byte; `none` is the exception of `decode`. -/
def readName (d : Bytes) (off : Nat) : Option Bytes :=
  let s := d.drop off
  let nm := if s.contains 0 then s.takeWhile (fun b => b != 0) else s.dropLast
  if nm.all (fun b => b < 128) then some nm else none

/-- The loop over the files of a pack (orioledb_s3_loader.py:278-292, 444-465): names and contents in order. -/
def unpackFrom (d : Bytes) : (count i : Nat) → Option (List (Bytes × Bytes))
  | 0, _ => some []
  | n + 1, i => do
    let nameOff ← readInt d (4 + i * 12)
    let dataOff ← readInt d (4 + i * 12 + 4)
    let len ← readInt d (4 + i * 12 + 8)
    let nm ← readName d nameOff
    let rest ← unpackFrom d n (i + 1)
    some ((nm, (d.drop dataOff).take len) :: rest)

/-- Taking a pack apart (orioledb_s3_loader.py:275-292, 440-465). -/
def unpack (d : Bytes) : Option (List (Bytes × Bytes)) := do
  let n ← readInt d 0
  unpackFrom d n 0

end Verif.S3Backup
