/-!
# Reads and writes of data files in S3 mode: which parts, and which bytes

Offsets are those in the tree (a segment has 1 GiB, a part 1 MiB); in the file a block of 8 KiB with the header comes
before.
-/

namespace Verif.S3Parts.Io

/-- `ORIOLEDB_S3_PART_SIZE`.  include/orioledb.h:128. -/
def part : Nat := 1024 * 1024

/-- `ORIOLEDB_SEGMENT_SIZE`.  include/orioledb.h:126. -/
def seg : Nat := 1024 * 1024 * 1024

/-- `ORIOLEDB_BLCKSZ`.  include/orioledb.h:122. -/
def blk : Nat := 8192

/-- `S3_HEADER_NUM_VALUES`: the number of parts a header has room for.  src/s3/headers.c:35. -/
def numValues : Nat := seg / part

/-- The pieces in which a range is read or written, and what is left of `amount` at the end of the loop (the last piece
if the loop ends with `break`, otherwise 0).  `g` is the granularity.  src/btree/io.c:624-663, and 716-755 for
reads.  The first argument bounds the number of rounds; `amount` is enough for `0 < g`. -/
def pieces (g : Nat) : Nat → Nat → Nat → List (Nat × Nat) × Nat
  | 0, _, amount => ([], amount)
  | fuel + 1, off, amount =>
    if amount = 0 then ([], 0)
    else if (off + amount) / g = off / g then ([(off, amount)], amount)
    else
      let r := pieces g fuel (off + (g - off % g)) (amount - (g - off % g))
      ((off, g - off % g) :: r.1, r.2)

/-- The parts given to `btree_smgr_schedule_s3_write` after a write, counted from the beginning of the tree.  The loop
has changed `amount` by then.  src/btree/io.c:665-676. -/
def scheduled (off amount : Nat) : List Nat :=
  let left := (pieces part amount off amount).2
  if ((off / part : Nat) : Int) ≠ ((off : Int) + left - 1).tdiv part then
    [off / part, (((off : Int) + left - 1).tdiv part).toNat]
  else [off / part]

/-- The parts of which a page is fetched before it is read.  `s3_schedule_downlink_load`: src/s3/worker.c:815-836.
Parts are counted from the beginning of the tree.  The first argument bounds the number of rounds. -/
def loads : Nat → Nat → Nat → List Nat
  | 0, _, _ => []
  | fuel + 1, off, size =>
    off / part :: (if off % part + size > part then
      loads fuel (off + (part - off % part)) (size - (part - off % part)) else [])

/-- The parts which have a byte of the range. -/
def touches (off amount k : Nat) : Prop := ∃ x, off ≤ x ∧ x < off + amount ∧ x / part = k

/-- The number of parts counted as loaded for an extent at the end of the file.  `t` is the number of blocks of a part.
`get_free_disk_extent`: src/btree/io.c:1119-1131. -/
def counted (t off len : Nat) : Nat := if (off + t - 1) / t ≠ (off + t - 1 + len) / t then 1 else 0

/-- The number of parts counted while extents of these lengths are added one after the other, and the length of the file
at the end. -/
def countAll (t : Nat) : Nat → List Nat → Nat × Nat
  | off, [] => (0, off)
  | off, len :: ls =>
    let r := countAll t (off + len) ls
    (counted t off len + r.1, r.2)

/-- What the eviction of a part does to the file: it overwrites `len` bytes from `off` with zeros; it looks at the state of a
part which the header has no room for; it is called with a negative length, which `pg_pwrite_zeros` takes for one of
nearly 2^64. -/
inductive Zero where
  | bytes (off len : Nat)
  | outside
  | runaway
deriving DecidableEq, Repr

/-- The number of parts which the eviction goes through for a file of this size.  src/s3/headers.c:1250. -/
def numParts (fileSize : Nat) : Nat := (fileSize + part - 1) / part

/-- The eviction of part `i`.  src/s3/headers.c:1275-1303; the state of the part allows it. -/
def zeroes (fileSize i : Nat) : Zero :=
  if numValues ≤ i then .outside
  else
    let off := i * part + blk
    if min (off + part) fileSize < off then .runaway else .bytes off (min (off + part) fileSize - off)

/-- What the start of the server does to a part which is not loaded.  src/s3/headers.c:1179-1192. -/
def startZeroes (fileSize i : Nat) : Option (Nat × Nat) :=
  let off := i * part + blk
  if off < fileSize then some (off, min (off + part) fileSize - off) else none

/-- The bytes of a part in the file: those of `s3_put_file_part` and `s3_get_file_part`.
src/s3/requests.c:653-656, 677-680. -/
def ofPart (i x : Nat) : Prop := i * part + blk ≤ x ∧ x < (i + 1) * part + blk

end Verif.S3Parts.Io
