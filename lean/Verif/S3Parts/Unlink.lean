import Verif.S3Parts.Io
import Verif.S3Parts.Codec

/-!
# The removal of a file none of whose parts is loaded

Simplified: the header as a whole, before and after; nobody else uses the file meanwhile.
-/

namespace Verif.S3Parts.Unlink

open Verif.S3Parts.Io

/-- A local file: whether it exists, its size, its header. -/
structure File where
  there : Bool
  size : Nat
  hd : Nat → Part

/-- The header of a file which is not there when it is read: all parts in S3 if the file is of a finished checkpoint, all
local if not.  src/s3/headers.c:221-235. -/
def fresh (chkp last : Nat) : Part :=
  if chkp ≤ last then ⟨0, .notLoaded, false, false, false, 0⟩ else ⟨0, .loaded, false, false, false, 0⟩

/-- The first part below `n` which is Loaded.  src/s3/headers.c:330-331. -/
def minLoaded (hd : Nat → Part) : Nat → Option Nat
  | 0 => none
  | n + 1 =>
    match minLoaded hd n with
    | some i => some i
    | none => if (hd n).st = .loaded then some n else none

/-- A part which is being loaded or evicted, or which somebody has locked.  src/s3/headers.c:332-336. -/
def busy (p : Part) : Bool := p.st == .loading || p.st == .evicting || decide (0 < p.locks)

/-- The file is kept.  src/s3/headers.c:332-336, 342-359. -/
def keeps (f : File) : Bool :=
  (List.range numValues).any (fun i => busy (f.hd i)) ||
    match minLoaded f.hd numValues with
    | some m => decide (m * part < f.size)
    | none => false

/-- `check_unlink_file`.  src/s3/headers.c:435-476, 361-369. -/
def check (f : File) : File := if keeps f then f else ⟨false, 0, f.hd⟩

/-- The header which the next process to use the file reads: `read_from_file`, src/s3/headers.c:198-243. -/
def header (chkp last : Nat) (f : File) (i : Nat) : Part := if f.there then f.hd i else fresh chkp last

end Verif.S3Parts.Unlink
