/-!
# The spool of CREATE INDEX CONCURRENTLY

While an index is built concurrently, the changes other processes make for it are appended to files, one
for each process.  When the build is done, the files are read as one sequence of changes, ordered by
the position in the undo log.
-/

namespace Verif.Cic

/-- What an entry does: an insertion, a deletion, and these taken back by a rollback.  `CICOpType`:
include/catalog/cic_spool.h:40-46. -/
inductive Op where
  | ins
  | del
  | rins
  | rdel
deriving DecidableEq, Repr

/-- The header of an entry.  The key part of an entry is always empty (src/tableam/operations.c:2358-2366,
2519-2525) and left out, with the format flags.  `CICSpoolEntryHdr`: include/catalog/cic_spool.h:54-66. -/
structure Hdr where
  pos : Nat
  seq : Nat
  op : Op
  len : Nat
deriving DecidableEq, Repr

/-- An entry in a file: the header and the bytes of the tuple.
src/catalog/cic_spool.c:186-233. -/
structure Rec where
  hdr : Hdr
  data : List Nat
deriving DecidableEq, Repr

/-- An entry as it is written: the length is that of the tuple, the number within the file is the
writer's counter.  `cic_spool_append`: src/catalog/cic_spool.c:177-236. -/
def entry (pos seq : Nat) (op : Op) (data : List Nat) : Rec := ⟨⟨pos, seq, op, data.length⟩, data⟩

/-- The reader's state for one file: what is not read yet, and the entry read ahead, with the buffer its
`tupleData` points to (`none` for a null pointer).  The code keeps the header of the entry read ahead;
its bytes in the file are here only to speak of them.  `CICSpoolStream`:
src/catalog/cic_spool.c:66-75. -/
structure Stream where
  rest : List Rec
  peek : Option (Rec × Option Nat)

/-- The reader: the streams, and one buffer for tuples, `tupBuf`, common to all streams.  `gen` is the
number of allocations so far, `buf` the contents; its length is `tupBufCap`.  `CICSpoolReader`:
src/catalog/cic_spool.c:77-86. -/
structure Reader where
  streams : List Stream
  gen : Nat
  buf : List Nat

/-- What a pointer of a returned entry leads to: nothing, freed memory, some bytes. -/
inductive Bytes where
  | null
  | dangling
  | bytes (l : List Nat)
deriving DecidableEq, Repr

/-- Read the bytes of an entry into the buffer; a buffer which is too small is freed and another one is
allocated.  `stream_read_one`: src/catalog/cic_spool.c:310-331. -/
def load (gen : Nat) (buf : List Nat) (e : Rec) : Nat × List Nat × Option Nat :=
  if e.hdr.len = 0 then (gen, buf, none)
  else if buf.length < e.hdr.len then (gen + 1, e.data, some (gen + 1))
  else (gen, e.data ++ buf.drop e.hdr.len, some gen)

/-- Read ahead in all streams which have no entry read ahead and are not at the end, in turn.
`stream_peek`: src/catalog/cic_spool.c:335-346; the loop of `cic_spool_read_next`: 425-430. -/
def peekAll (gen : Nat) (buf : List Nat) : List Stream → Nat × List Nat × List Stream
  | [] => (gen, buf, [])
  | ⟨e :: rest, none⟩ :: ss =>
    let l := load gen buf e
    let r := peekAll l.1 l.2.1 ss
    (r.1, r.2.1, ⟨rest, some (e, l.2.2)⟩ :: r.2.2)
  | s :: ss =>
    let r := peekAll gen buf ss
    (r.1, r.2.1, s :: r.2.2)

/-- Is a header to be taken before that of a stream with a lower number?
src/catalog/cic_spool.c:436-446.  (The last comparison there, by number, never holds.) -/
def better (a b : Hdr) : Bool := a.pos < b.pos || (a.pos == b.pos && a.seq < b.seq)

/-- The stream with the least entry read ahead.  src/catalog/cic_spool.c:425-447. -/
def best (i : Nat) (acc : Option (Nat × Rec × Option Nat)) :
    List Stream → Option (Nat × Rec × Option Nat)
  | [] => acc
  | s :: ss =>
    match s.peek, acc with
    | none, _ => best (i + 1) acc ss
    | some (e, p), none => best (i + 1) (some (i, e, p)) ss
    | some (e, p), some a => best (i + 1) (if better e.hdr a.2.1.hdr then some (i, e, p) else some a) ss

/-- An entry as returned: the number of the file and the entry in it, and what `tupleData` leads to. -/
structure Out where
  file : Nat
  src : Rec
  data : Bytes
deriving DecidableEq, Repr

/-- What a pointer into the buffer leads to. -/
def deref (gen : Nat) (buf : List Nat) (len : Nat) : Option Nat → Bytes
  | none => .null
  | some g => if g = gen then .bytes (buf.take len) else .dangling

/-- Take away the entry read ahead. -/
def Stream.taken (s : Stream) : Stream := { s with peek := none }

/-- The next entry.  `cic_spool_read_next`: src/catalog/cic_spool.c:416-461. -/
def next (r : Reader) : Option (Out × Reader) :=
  let q := peekAll r.gen r.buf r.streams
  match best 0 none q.2.2 with
  | none => none
  | some (i, e, p) =>
    some (⟨i, e, deref q.1 q.2.1 e.hdr.len p⟩, ⟨q.2.2.modify i Stream.taken, q.1, q.2.1⟩)

/-- The reader over some files, in the order of the directory.  `cic_spool_open_reader`:
src/catalog/cic_spool.c:348-414. -/
def openReader (files : List (List Rec)) : Reader := ⟨files.map (fun f => ⟨f, none⟩), 0, []⟩

/-- Read until there is no entry, at most so many.  The loop in `cic_spool_replay_into`:
src/catalog/cic_spool.c:687-738. -/
def readAll : Nat → Reader → List Out
  | 0, _ => []
  | n + 1, r =>
    match next r with
    | none => []
    | some (o, r') => o :: readAll n r'

/-- All entries of the files as they are read. -/
def readFiles (files : List (List Rec)) : List Out :=
  readAll ((files.map List.length).sum + 1) (openReader files)

/-- Does an entry put its key into the index?  src/catalog/cic_spool.c:699-715. -/
def Op.puts : Op → Bool
  | .ins => true
  | .rdel => true
  | .del => false
  | .rins => false

/-- Apply one entry to the index, a set of keys: an insertion of a key which is there, and a deletion of
one which is not, do nothing; an entry without tuple is skipped; `none` if freed memory is read.
src/catalog/cic_spool.c:694-735. -/
def applyOut (t : List Nat → Bool) (o : Out) : Option (List Nat → Bool) :=
  match o.data with
  | .null => some t
  | .dangling => none
  | .bytes k => some (fun x => if x = k then o.src.hdr.op.puts else t x)

/-- Apply all entries.  `cic_spool_replay_into`: src/catalog/cic_spool.c:662-744. -/
def drain (t : List Nat → Bool) : List Out → Option (List Nat → Bool)
  | [] => some t
  | o :: os =>
    match applyOut t o with
    | none => none
    | some t' => drain t' os

end Verif.Cic
