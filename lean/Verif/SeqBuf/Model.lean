/-!
# Sequential buffers, `src/utils/seq_buf.c`

`C` is `SEQBUF_CHUNK_SIZE` (8176, src/utils/seq_buf.c:43-45).  Positions inside a
page are relative to `SEQBUF_DATA_OFF`, so `shared->location == ORIOLEDB_BLCKSZ`
reads `loc = C`.  The spin lock makes every block between acquire and release one
atomic step; a page switch is two steps, the I/O in between being unlocked.
I/O errors end in `PANIC` in the code and are not modelled (so `SeqBufPrevPageError`
is unreachable).
-/

namespace Verif.SeqBuf

/-- Contents of files and pages.  Auxiliary of the model, without counterpart in /repo. -/
abbrev Bytes := List UInt8

/-- `OFileWrite` at an offset (a gap is filled with zeroes by the file system).
src/utils/seq_buf.c:276, 525. -/
def pwrite (f : Bytes) (off : Nat) (data : Bytes) : Bytes :=
  f.take off ++ List.replicate (off - f.length) 0 ++ data ++ f.drop (off + data.length)

/-- `OFileRead` at an offset: fewer bytes at the end of the file.
src/utils/seq_buf.c:303, 735, 752. -/
def pread (f : Bytes) (off n : Nat) : Bytes := (f.drop off).take n

/-- `memcpy(page + location, data, data_size)`.  src/utils/seq_buf.c:430. -/
def splice (page : Bytes) (loc : Nat) (data : Bytes) : Bytes :=
  page.take loc ++ data ++ page.drop (loc + data.length)

/-! ## Writer -/

/-- `SeqBufDescShared` of a buffer opened for writing (include/utils/seq_buf.h:42-54)
with its file; `cur`/`other` are the data areas of `pages[curPageNum]` and
`pages[1 - curPageNum]`.  `log` is ghost: the items copied into pages, in order.
`bad` records a failed assertion. -/
structure W where
  cur : Bytes
  other : Bytes
  loc : Nat
  fpn : Nat
  evict : Nat
  inprog : Bool
  file : Bytes
  log : List Bytes
  bad : Bool
  deriving Repr, DecidableEq

/-- `init_seq_buf(write = true)`, src/utils/seq_buf.c:68-122; the pages hold
arbitrary old contents. -/
def W.init (skip : Nat) (evicted : Option Nat) (p0 p1 file : Bytes) (log : List Bytes)
    (bad : Bool) : W :=
  { cur := p0, other := p1, loc := if evicted.isSome then 0 else skip, fpn := 0,
    evict := evicted.getD 0, inprog := false, file := file, log := log, bad := bad }

/-- One pass of the loop in `seq_buf_rw(write = true)`, src/utils/seq_buf.c:411-441,
with the locked part of `seq_buf_switch_page`, src/utils/seq_buf.c:344-392; when
the previous switch is still in progress the process spins (no change). -/
def W.write (C : Nat) (w : W) (data : Bytes) : W :=
  if w.loc + data.length ≤ C then
    { w with cur := splice w.cur w.loc data, loc := w.loc + data.length, log := w.log ++ [data] }
  else if w.inprog then w
  else { w with cur := w.other, other := w.cur, fpn := w.fpn + 1, loc := 0, inprog := true,
                bad := w.bad || w.loc != C }

/-- `seq_buf_finish_prev_page` of a writer and publication of its result,
src/utils/seq_buf.c:262-283, 394-401. -/
def W.finish (C : Nat) (w : W) : W :=
  if w.inprog then
    { w with file := pwrite w.file (C * (w.fpn - 1) + w.evict) w.other, inprog := false }
  else w

/-- `seq_buf_finalize` of a writer, src/utils/seq_buf.c:490-544: waits for the
previous page, writes the used part of the current one, returns the offset.  (An
empty file is removed, which reads like an empty one.) -/
def W.finalize (C : Nat) (w : W) : Bytes × Nat :=
  let w := w.finish C
  (pwrite w.file (C * w.fpn + w.evict) (w.cur.take w.loc), C * w.fpn + w.evict + w.loc)

/-- Steps of a writer: `seq_buf_rw`, src/utils/seq_buf.c:411-441, and the end of a page switch,
394-401. -/
inductive WMove where
  /-- a process tries to append an item -/
  | write (data : Bytes)
  /-- the process that switched the page completes its write -/
  | finish
  /-- the tree is evicted (src/btree/io.c:2636-2655) and loaded again; the new pages
  have arbitrary contents -/
  | evict (p0 p1 : Bytes)

/-- One step, see the functions above.  src/utils/seq_buf.c:262-441, 490-544. -/
def W.step (C skip : Nat) (w : W) : WMove → W
  | .write data => w.write C data
  | .finish => w.finish C
  | .evict p0 p1 =>
    let r := w.finalize C
    W.init skip (some r.2) p0 p1 r.1 w.log w.bad

/-- Steps one after another.  Auxiliary of the model, without counterpart in /repo. -/
def W.run (C skip : Nat) (w : W) (ms : List WMove) : W := ms.foldl (W.step C skip) w

/-! ## Reader -/

/-- A buffer opened for reading; `free` is `freeBytesNum`, `out` (ghost) the items
returned so far, `bad` a `PANIC` or failed assertion.  include/utils/seq_buf.h:42-54. -/
structure R where
  cur : Bytes
  other : Bytes
  loc : Nat
  fpn : Nat
  evict : Nat
  inprog : Bool
  free : Nat
  file : Bytes
  out : List Bytes
  bad : Bool
  deriving Repr, DecidableEq

/-- Conversion to C `int`.  Auxiliary of the model, without counterpart in /repo. -/
def toInt32 (n : Nat) : Int :=
  if n % 4294967296 < 2147483648 then (n % 4294967296 : Nat)
  else ((n % 4294967296 : Nat) : Int) - 4294967296

/-- A page image of which only the first bytes were read, the rest 0xFF.
src/utils/seq_buf.c:731-732, 740-748. -/
def padded (C : Nat) (b : Bytes) : Bytes := b ++ List.replicate (C - b.length) 0xFF

/-- `seq_buf_read_pages`, src/utils/seq_buf.c:698-768: `none` is `PANIC` or
failure.  The local variables are C `int`s; `len` is a truncated `FileSize`. -/
def readPages (C skip evict : Nat) (file : Bytes) (p0 p1 : Bytes) : Option (Bytes × Bytes × Nat) :=
  let len := toInt32 file.length
  if len < skip then none
  else if len < evict then none
  else if len = 0 ∧ skip = 0 then some (p0, p1, 0)
  else
    let len := len - evict
    if len = 0 ∧ skip = 0 then some (p0, p1, 0)
    else
      let n := len.toNat
      let first := min n C
      let b0 := pread file evict first
      if b0.length ≠ first then none
      else if n > C then
        let second := min (n - C) C
        let b1 := pread file (evict + first) second
        if b1.length ≠ second then none
        else some (padded C b0, padded C b1, n - first - second)
      else some (padded C b0, padded C [], n - first)

/-- `init_seq_buf(write = false)` for an existing file, src/utils/seq_buf.c:68-122. -/
def R.init (C skip : Nat) (evicted : Option Nat) (p0 p1 file : Bytes) (out : List Bytes)
    (bad : Bool) : R :=
  match readPages C skip (evicted.getD 0) file p0 p1 with
  | none => { cur := p0, other := p1, loc := 0, fpn := 0, evict := 0, inprog := false, free := 0,
              file := file, out := out, bad := true }
  | some (c, o, fr) =>
    { cur := c, other := o, loc := if evicted.isSome then 0 else skip, fpn := 0,
      evict := evicted.getD 0, inprog := false, free := fr, file := file, out := out, bad := bad }

/-- One pass of the loop in `seq_buf_rw(write = false)`, src/utils/seq_buf.c:411-441,
with the locked part of `seq_buf_switch_page`. -/
def R.read (C d : Nat) (r : R) : R :=
  if r.loc + d ≤ C then
    { r with loc := r.loc + d, out := r.out ++ [(r.cur.drop r.loc).take d] }
  else if r.inprog then r
  else { r with cur := r.other, other := r.cur, fpn := r.fpn + 1, loc := 0, inprog := true,
                bad := r.bad || r.loc != C }

/-- `seq_buf_finish_prev_page` of a reader, src/utils/seq_buf.c:284-340, 394-401:
reads ahead the page after the current one. -/
def R.finish (C : Nat) (r : R) : R :=
  if r.inprog then
    if r.free > 0 then
      let b := pread r.file (C * (r.fpn + 1) + r.evict) C
      if b.length = 0 ∨ (r.free ≥ C ∧ b.length ≠ C) ∨ (r.free < C ∧ r.free ≠ b.length) then
        { r with inprog := false, bad := true }
      else { r with inprog := false, free := r.free - b.length, other := padded C b }
    else { r with inprog := false }
  else r

/-- `seq_buf_finalize` of a reader, src/utils/seq_buf.c:490-544: the offset; a zero
offset makes it remove the file. -/
def R.finalize (C : Nat) (r : R) : Nat × Bytes :=
  let r := r.finish C
  let off := C * r.fpn + r.evict + r.loc
  (off, if off = 0 then [] else r.file)

/-- Steps of a reader: `seq_buf_rw`, src/utils/seq_buf.c:411-441, and the end of a page switch,
394-401. -/
inductive RMove where
  | read
  | finish
  /-- eviction (src/btree/io.c:2622-2623) and reload -/
  | evict (p0 p1 : Bytes)

/-- One step, see the functions above.  src/utils/seq_buf.c:262-441, 490-544. -/
def R.step (C d skip : Nat) (r : R) : RMove → R
  | .read => r.read C d
  | .finish => r.finish C
  | .evict p0 p1 =>
    let f := r.finalize C
    R.init C skip (some f.1) p0 p1 f.2 r.out (r.finish C).bad

/-- Steps one after another.  Auxiliary of the model, without counterpart in /repo. -/
def R.run (C d skip : Nat) (r : R) (ms : List RMove) : R := ms.foldl (R.step C d skip) r

end Verif.SeqBuf
