/-!
# The state of a part of a data file in S3 mode: its 32 bits

In S3 mode each data file is divided into parts of 1 MiB.  The state of a part is a word of 32 bits in the header
of the file: the number of locks, the status, three flags and the usage count.  Each change of the state is a
compare-and-swap of the word.
-/

namespace Verif.S3Parts

/-- `S3PartStatus`.  include/s3/headers.h:24-30. -/
inductive Status where
  | notLoaded
  | loading
  | loaded
  | evicting
deriving DecidableEq, Repr

/-- The number of a status.  include/s3/headers.h:24-30. -/
def Status.num : Status → Nat
  | .notLoaded => 0
  | .loading => 1
  | .loaded => 2
  | .evicting => 3

/-- The state of a part, field by field: locks, status, the flags dirty, writing and scheduled for write, and the
usage count. -/
structure Part where
  locks : Nat
  st : Status
  dirty : Bool
  writing : Bool
  sched : Bool
  usage : Nat
deriving DecidableEq, Repr

/-- `S3_PART_LOCKS_NUM_MASK`.  src/s3/headers.c:109. -/
def locksMask : BitVec 32 := 0x0003FFFF#32

/-- `S3_PART_STATUS_MASK`.  src/s3/headers.c:113. -/
def statusMask : BitVec 32 := 0x001C0000#32

/-- `S3_PART_DIRTY_FLAG`.  src/s3/headers.c:117. -/
def dirtyFlag : BitVec 32 := 0x00200000#32

/-- `S3_PART_WRITING_FLAG`.  src/s3/headers.c:118. -/
def writingFlag : BitVec 32 := 0x00400000#32

/-- `S3_PART_SCHEDULED_FOR_WRITE_FLAG`.  src/s3/headers.c:119. -/
def schedFlag : BitVec 32 := 0x00800000#32

/-- `S3_PART_USAGE_COUNT_MASK`.  src/s3/headers.c:120. -/
def usageMask : BitVec 32 := 0xFE000000#32

/-- `S3_PART_GET_LOCKS_NUM`.  src/s3/headers.c:112. -/
def getLocks (p : BitVec 32) : BitVec 32 := (p &&& locksMask) >>> 0

/-- `S3_PART_GET_STATUS`.  src/s3/headers.c:115. -/
def getStatus (p : BitVec 32) : BitVec 32 := (p &&& statusMask) >>> 18

/-- `S3_PART_SET_STATUS`.  src/s3/headers.c:116. -/
def setStatus (p : BitVec 32) (s : BitVec 32) : BitVec 32 := (p &&& ~~~statusMask) ||| (s <<< 18)

/-- `S3_PART_GET_USAGE_COUNT`.  src/s3/headers.c:123. -/
def getUsage (p : BitVec 32) : BitVec 32 := (p &&& usageMask) >>> 25

/-- `S3_PART_SET_USAGE_COUNT`.  src/s3/headers.c:124. -/
def setUsage (p : BitVec 32) (u : BitVec 32) : BitVec 32 := (p &&& ~~~usageMask) ||| (u <<< 25)

/-- What the word says.  Status numbers above 3 do not occur; they are read as `evicting` here. -/
def decode (p : BitVec 32) : Part where
  locks := (getLocks p).toNat
  st := match (getStatus p).toNat with
    | 0 => .notLoaded
    | 1 => .loading
    | 2 => .loaded
    | _ => .evicting
  dirty := p &&& dirtyFlag != 0#32
  writing := p &&& writingFlag != 0#32
  sched := p &&& schedFlag != 0#32
  usage := (getUsage p).toNat

/-- Only the four statuses. -/
def valid (p : BitVec 32) : Prop := (getStatus p).toNat < 4

/-- The changes of a part, each of which is one compare-and-swap of the word, which succeeds only if the word is still
the one the new one was made from. -/
inductive Chg where
  | lock
  | unlock (setDirty : Bool)
  | loading
  | loaded
  | sched
  | writing
  | written
  | notWritten
  | evict
  | age
  | gone
deriving DecidableEq, Repr

/-- The new word.  `lock` is src/s3/headers.c:708-711; `unlock` 821-823; `loading` 752; `loaded` 799-800; `sched` 854;
`writing` 877-878; `written` 920; `notWritten` 943-944; `evict` 1284; `age` 1288; `gone` 900. -/
def word (v : BitVec 32) : Chg → BitVec 32
  | .lock => setUsage (v + 1#32) (if (getUsage v).toNat < 0x7F then getUsage v + 1#32 else getUsage v)
  | .unlock d => if d then (v - 1#32) ||| dirtyFlag else v - 1#32
  | .loading => setStatus v 1#32
  | .loaded => setUsage (setStatus v 2#32) 1#32
  | .sched => v ||| schedFlag
  | .writing => (v &&& ~~~(dirtyFlag ||| schedFlag)) ||| writingFlag
  | .written => v &&& ~~~writingFlag
  | .notWritten => (v &&& ~~~writingFlag) ||| (dirtyFlag ||| schedFlag)
  | .evict => setStatus v 3#32
  | .age => setUsage v (getUsage v >>> 1)
  | .gone => setStatus v 0#32

/-- The same changes field by field. -/
def Part.change (p : Part) : Chg → Part
  | .lock => { p with locks := p.locks + 1, usage := min (p.usage + 1) 127 }
  | .unlock d => { p with locks := p.locks - 1, dirty := p.dirty || d }
  | .loading => { p with st := .loading }
  | .loaded => { p with st := .loaded, usage := 1 }
  | .sched => { p with sched := true }
  | .writing => { p with dirty := false, sched := false, writing := true }
  | .written => { p with writing := false }
  | .notWritten => { p with writing := false, dirty := true, sched := true }
  | .evict => { p with st := .evicting }
  | .age => { p with usage := p.usage / 2 }
  | .gone => { p with st := .notLoaded }

end Verif.S3Parts
