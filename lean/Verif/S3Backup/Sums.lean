import Verif.S3Backup.Pack

/-!
# The lists of checksums (src/s3/checksum.c)

Each backup leaves a text file with one line for each file: its name, its checksum and the number of the checkpoint
under which its contents are in the bucket.
-/

namespace Verif.S3Backup

/-- `S3FileChecksum` (include/s3/checksum.h:23-31) without `changed`. -/
structure Entry where
  name : Bytes
  sum : Bytes
  ck : Nat
deriving DecidableEq, Repr

/-- `getS3FileChecksum` (src/s3/checksum.c:198-254) up to the storing of the entry: the entry, and `changed`.  `H` is
SHA-256 written in hexadecimal (src/s3/checksum.c:221-224), any function here; `T` is the hash table, empty when there
was no file of the former backup (src/s3/checksum.c:211-219). -/
def entryOf (H : Bytes → Bytes) (n : Nat) (T : List Entry) (name data : Bytes) : Entry × Bool :=
  match T.find? (fun e => e.name == name) with
  | none => (⟨name, H data, n⟩, true)
  | some p => if p.sum = H data then (⟨name, H data, p.ck⟩, false) else (⟨name, H data, n⟩, true)

/-! ## Text -/

/-- `%u` of `fprintf` (src/s3/checksum.c:175). -/
def digits (n : Nat) : Bytes :=
  if n < 10 then [UInt8.ofNat (48 + n)] else digits (n / 10) ++ [UInt8.ofNat (48 + n % 10)]
termination_by n
decreasing_by omega

/-- `"FILE: "` of the format (src/s3/checksum.c:99, 175). -/
def litFile : Bytes := [70, 73, 76, 69, 58, 32]
/-- `", CHECKSUM: "` of the format (src/s3/checksum.c:99, 175). -/
def litSum : Bytes := [44, 32, 67, 72, 69, 67, 75, 83, 85, 77, 58, 32]
/-- `", CHECKPOINT: "` of the format (src/s3/checksum.c:99, 175). -/
def litCk : Bytes := [44, 32, 67, 72, 69, 67, 75, 80, 79, 73, 78, 84, 58, 32]

/-- A line of the file with its newline (`flushS3ChecksumState`, src/s3/checksum.c:175-177). -/
def formatLine (e : Entry) : Bytes :=
  litFile ++ e.name ++ litSum ++ e.sum ++ litCk ++ digits e.ck ++ [10]

/-- The loop of `flushS3ChecksumState` (src/s3/checksum.c:173-182). -/
def formatFile (T : List Entry) : Bytes := (T.map formatLine).flatten

/-- `isspace` in the C locale, as `sscanf` uses it. -/
def isSpace (b : UInt8) : Bool := b == 32 || (9 ≤ b && b ≤ 13)

/-- The literal part of a format of `sscanf`: a blank stands for any number of blanks, also none. -/
def scanLit : Bytes → Bytes → Option Bytes
  | [], s => some s
  | c :: fmt, s =>
    if c = 32 then scanLit fmt (s.dropWhile isSpace)
    else match s with
      | b :: s => if b = c then scanLit fmt s else none
      | [] => none

/-- `%N[^,]` of `sscanf`: at least one byte, no comma. -/
def scanSet (n : Nat) (s : Bytes) : Option (Bytes × Bytes) :=
  let t := (s.take n).takeWhile (fun b => b != 44)
  if t = [] then none else some (t, s.drop t.length)

/-- Is the byte a decimal digit? -/
def isDigit (b : UInt8) : Bool := 48 ≤ b && b ≤ 57

/-- `%u` of `sscanf`.  Simplified: no sign; unbounded (numbers of checkpoints are below 2^32). -/
def scanU (s : Bytes) : Option Nat :=
  let t := (s.dropWhile isSpace).takeWhile isDigit
  if t = [] then none else some (t.foldl (fun a b => 10 * a + (b.toNat - 48)) 0)

/-- The `sscanf` of `initHashTable` (src/s3/checksum.c:99-100). -/
def parseLine (s : Bytes) : Option Entry := do
  let s ← scanLit litFile s
  let (name, s) ← scanSet 1023 s
  let s ← scanLit litSum s
  let (sum, s) ← scanSet 64 s
  let s ← scanLit litCk s
  let ck ← scanU s
  some ⟨name, sum, ck⟩

/-- `pg_get_line_buf` (used at src/s3/checksum.c:95): the lines of the file with their newlines. -/
def splitLines : Bytes → List Bytes
  | [] => []
  | b :: s =>
    if b = 10 then [10] :: splitLines s
    else match splitLines s with
      | [] => [[b]]
      | l :: ls => (b :: l) :: ls

/-- The loop of `initHashTable` (src/s3/checksum.c:95-138): `none` is an error (a line of another form, a number that
is not below that of the backup, a repeated name). -/
def readLines (n : Nat) : List Bytes → List Entry → Option (List Entry)
  | [], T => some T
  | l :: ls, T =>
    match parseLine l with
    | none => none
    | some e =>
      if n ≤ e.ck then none
      else if T.any (fun x => x.name == e.name) then none
      else readLines n ls (T ++ [e])

/-- `initHashTable` (src/s3/checksum.c:69-150) on an existing file. -/
def parseFile (n : Nat) (text : Bytes) : Option (List Entry) := readLines n (splitLines text) []

/-! ## The scan for small files -/

/-- `SMALL_FILE_THRESHOLD`, `SMALL_FILES_TOTAL_THRESHOLD`, `FILE_CHECKSUMS_MAX_LEN` (src/s3/checkpoint.c:210-213). -/
def smallThreshold : Nat := 65536
/-- `SMALL_FILES_TOTAL_THRESHOLD` (src/s3/checkpoint.c:211). -/
def totalThreshold : Nat := 1048576
/-- `FILE_CHECKSUMS_MAX_LEN` (src/s3/checkpoint.c:213). -/
def sumsMax : Nat := 100

/-- `S3BackupState` (src/s3/checkpoint.c:199-208) with the buffer of the checksum state
(include/s3/checksum.h:33-41), the temporary file of checksums (`tmp`, as entries) and the packs written so far. -/
structure Scan where
  buf : List Entry
  tmp : List Entry
  names : List SmallFile
  total : Nat
  packs : List Bytes
deriving DecidableEq, Repr

/-- The beginning of `s3_perform_backup` (src/s3/checkpoint.c:252, 264-267). -/
def Scan.init : Scan := ⟨[], [], [], 4, []⟩

/-- The storing of an entry: flush when the buffer is full (src/s3/checkpoint.c:876-878, src/s3/checksum.c:157-192),
then append (src/s3/checksum.c:245-251). -/
def Scan.store (s : Scan) (e : Entry) : Scan :=
  if s.buf.length = sumsMax then { s with tmp := s.tmp ++ s.buf, buf := [e] } else { s with buf := s.buf ++ [e] }

/-- `flush_small_files` with its resetting of the state (src/s3/checkpoint.c:846-857). -/
def Scan.flush (garb : Nat → UInt8) (s : Scan) : Option Scan :=
  match flushSmall garb s.names with
  | none => none
  | some p => some { s with packs := s.packs ++ [p], names := [], total := 4 }

/-- `accumulate_small_file` (src/s3/checkpoint.c:861-905). -/
def Scan.accumulate (H : Bytes → Bytes) (garb : Nat → UInt8) (n : Nat) (T : List Entry) (s : Scan) (f : SmallFile) :
    Option Scan :=
  let req := 12 + (f.name.length + 1) + f.size
  let (s, changed) : Scan × Bool :=
    match f.atSum with
    | none => (s, true)
    | some d => (s.store (entryOf H n T f.name d).1, (entryOf H n T f.name d).2)
  if changed then
    match (if s.total + req > totalThreshold then s.flush garb else some s) with
    | none => none
    | some s => some { s with names := s.names ++ [f], total := s.total + req }
  else some s

/-- The calls of `accumulate_small_file` by `s3_backup_scan_dir` (src/s3/checkpoint.c:612-613), for all small files in
the order of the scan.  Simplified: which files are left out by name is not modelled. -/
def Scan.all (H : Bytes → Bytes) (garb : Nat → UInt8) (n : Nat) (T : List Entry) : List SmallFile → Scan → Option Scan
  | [], s => some s
  | f :: fs, s =>
    match s.accumulate H garb n T f with
    | none => none
    | some s => Scan.all H garb n T fs s

/-- `s3_perform_backup` for small files (src/s3/checkpoint.c:233-320): the packs, and the new file of checksums.  The
last pack is written at 301; the checksums still in the buffer are freed with it at 304, unwritten; the temporary file
becomes the new one at 315 (an error when it does not exist, that is, when the buffer was never full). -/
def backupSmall (H : Bytes → Bytes) (garb : Nat → UInt8) (n : Nat) (T : List Entry) (fs : List SmallFile) :
    Option (List Entry × List Bytes) :=
  match Scan.all H garb n T fs Scan.init with
  | none => none
  | some s =>
    match s.flush garb with
    | none => none
    | some s => if s.tmp = [] then none else some (s.tmp, s.packs)

/-! ## A series of backups, and the loader -/

/-- The restored directory. -/
abbrev Fs := Bytes → Option Bytes

/-- Writing a file. -/
def Fs.put (fs : Fs) (nm d : Bytes) : Fs := fun x => if x = nm then some d else fs x

/-- The empty directory. -/
def Fs.empty : Fs := fun _ => none

/-- The last checkpoint number, the local file of checksums (uploaded with the backup, src/s3/checkpoint.c:316) and
the packs in the bucket under each number. -/
structure SmallWorld where
  num : Nat
  table : List Entry
  packs : Nat → List Bytes

/-- Before the first backup. -/
def SmallWorld.init : SmallWorld := ⟨0, [], fun _ => []⟩

/-- A backup that ends well (src/s3/checkpoint.c:233-320, called with a new number at
src/checkpoint/checkpoint.c:1995, 2124). -/
def SmallWorld.backup (H : Bytes → Bytes) (garb : Nat → UInt8) (w : SmallWorld) (fs : List SmallFile) :
    Option SmallWorld :=
  match backupSmall H garb (w.num + 1) w.table fs with
  | none => none
  | some (t, ps) => some ⟨w.num + 1, t, fun k => if k = w.num + 1 then ps else w.packs k⟩

/-- A backup that is given up after the first `k` packs: the number is used up, the file of checksums stays as it was. -/
def SmallWorld.abandon (H : Bytes → Bytes) (garb : Nat → UInt8) (w : SmallWorld) (fs : List SmallFile) (k : Nat) :
    Option SmallWorld :=
  match backupSmall H garb (w.num + 1) w.table fs with
  | none => none
  | some (_, ps) => some ⟨w.num + 1, w.table, fun j => if j = w.num + 1 then ps.take k else w.packs j⟩

/-- Unpacking of all packs of the last checkpoint (`download_files_in_directory` and `download_file`,
orioledb_s3_loader.py:119-123, 273-293). -/
def loadOwn : List Bytes → Fs → Option Fs
  | [], fs => some fs
  | p :: ps, fs =>
    match unpack p with
    | none => none
    | some l => loadOwn ps (l.foldl (fun fs x => fs.put x.1 x.2) fs)

/-- The inner loop of `download_unchanged_small_files` (orioledb_s3_loader.py:444-470): the names that are wanted are
written and counted, until all are. -/
def loadPack (want : List Bytes) : List (Bytes × Bytes) → Fs × Nat → Fs × Nat
  | [], r => r
  | (nm, d) :: l, (fs, r) =>
    if want.contains nm then
      if r + 1 = want.length then (fs.put nm d, r + 1) else loadPack want l (fs.put nm d, r + 1)
    else loadPack want l (fs, r)

/-- The outer loop (orioledb_s3_loader.py:429-477). -/
def loadPacks (want : List Bytes) : List Bytes → Fs × Nat → Option (Fs × Nat)
  | [], r => some r
  | p :: ps, r =>
    match unpack p with
    | none => none
    | some l =>
      let r := loadPack want l r
      if r.2 = want.length then some r else loadPacks want ps r

/-- `download_unchanged_small_files` (orioledb_s3_loader.py:406-492).  When files are missing after the packs of the
former checkpoint, the loop at 482 takes the keys of the dictionary apart as if they were pairs; that raises an error
for each name that is not two letters long (all names begin with `./`), so the recursive call is not reached. -/
def loadSmall (packs : Nat → List Bytes) (num : Nat) (want : List Bytes) (fs : Fs) : Option Fs :=
  if num ≤ 1 then some fs
  else if want = [] then some fs
  else match loadPacks want (packs (num - 1)) (fs, 0) with
    | none => none
    | some (fs, r) => if r < want.length then none else some fs

/-- The loader for small files (orioledb_s3_loader.py:117-138, 494-517): the packs of the last checkpoint, then the
files that are listed under a smaller number.  `none` is an exception. -/
def SmallWorld.restore (w : SmallWorld) : Option Fs :=
  match loadOwn (w.packs w.num) Fs.empty with
  | none => none
  | some fs =>
    if w.table.any (fun e => w.num < e.ck) then none
    else loadSmall w.packs w.num ((w.table.filter (fun e => e.ck < w.num)).map Entry.name) fs

end Verif.S3Backup
