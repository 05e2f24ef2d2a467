import Verif.S3Parts.Codec

/-!
# The parts of data files in S3 mode

One part of a data file.  Processes lock it to read or write its pages; if it is not in the local file they ask for
it; workers download it, and upload it when it has been changed; it is evicted from the local file when it has not
been used for a while.

Simplified: each loop around a compare-and-swap is one step, that of the swap which succeeds (or of the read after
which the loop returns); the contents of the part are one value, read and written at once, `0` stands for zeros;
the queue is not ordered (each task may be picked).  Not modelled: the cache of the headers (the header is always
there), `perform_page_io_autonomous`, restarts of the whole server, the file being unlinked.
-/

namespace Verif.S3Parts

/-- What a process is doing.
`ask`: it has made the part Loading and will put the task into the queue (src/s3/worker.c:703-732).
`held`: it has the part locked, and has written to it or not (src/btree/io.c:634-645, 726-737).
`put`: it has marked the part as scheduled and will put the task into the queue (src/s3/worker.c:658-668).
`rd`, `got`, `fill`, `claim`, `rdone`: a worker with a task to download: nothing done; the object has been fetched; it
has been written to the file; the part is Loading; the part has been marked, the task is still in its slot
(src/s3/worker.c:371-391, 585-586).
`wr`: a worker with a task to upload, for the first time or again after it has been restarted; `up`: the part has
been marked; `sent`: the contents have been read; `ok`: they have been put; `wdone`: the part has been marked, the
task is still in its slot (src/s3/worker.c:419-432, 585-586).
`ev`, `zero`: the part is Evicting; it has been overwritten with zeros (src/s3/headers.c:1291-1309). -/
inductive Pc where
  | idle
  | ask
  | held (wrote : Bool)
  | put
  | rd
  | got (c : Nat)
  | fill
  | claim
  | rdone
  | wr (again : Bool)
  | up
  | sent (c : Nat)
  | ok
  | wdone
  | ev
  | zero
deriving DecidableEq, Repr

/-- The state: the header of the part; its contents in the local file and in S3; the tasks in the queue to download
and to upload it; what each process is doing; the contents as last written by a process (for the statements
only). -/
structure St where
  hd : Part
  loc : Nat
  s3 : Option Nat
  qr : Nat
  qw : Nat
  pc : Nat → Pc
  cur : Nat

/-- A new part of a new file.  `read_from_file`: src/s3/headers.c:227-234. -/
def init : St := ⟨⟨0, .loaded, false, false, false, 0⟩, 0, none, 0, 0, fun _ => .idle, 0⟩

/-- Change one value of a function. -/
def set {α : Type} (f : Nat → α) (x : Nat) (a : α) : Nat → α := fun y => if y = x then a else f y

/-- The state with a process doing something else. -/
def St.at (s : St) (p : Nat) (c : Pc) : St := { s with pc := set s.pc p c }

/-- The state after a change of the header. -/
def St.chg (s : St) (c : Chg) : St := { s with hd := s.hd.change c }

/-- What a process can do next: lock the part (or begin to), put the task to download, write, unlock; schedule the
upload, put the task; pick a task, go on with it; be restarted, or fail with an error while uploading; begin to
evict, go on with it. -/
inductive Act where
  | lock
  | ask
  | write (c : Nat)
  | unlock
  | sched
  | put
  | pickR
  | pickW
  | go
  | die
  | err
  | evict
deriving DecidableEq, Repr

/-- The header allows to evict the part.  src/s3/headers.c:1280-1282. -/
def Part.evictable (h : Part) : Bool :=
  h.st == .loaded && h.locks == 0 && h.usage == 0 && !h.dirty && !h.writing

/-- The next step of a worker with a task, or of a process which evicts the part.
`rd`: `s3_get_object`; if there is no such object, the worker ends and is started again with its task
(src/s3/requests.c:240-250, src/s3/worker.c:966-969).
`fill`: `s3_header_mark_part_loading`, src/s3/headers.c:724-770; `claim`: `s3_header_mark_part_loaded`, 772-805.
`wr`: `s3_header_mark_part_writing`, 863-885; `up`: `read_file_part`, src/s3/requests.c:653-656;
`sent`: the PUT, 658-662; `ok`: `s3_header_mark_part_written`, src/s3/headers.c:909-927.
`rdone`, `wdone`: the task is erased.
`ev`: src/s3/headers.c:1303; `zero`: `s3_header_mark_not_loaded`, 887-907. -/
def go (s : St) (p : Nat) : Option St :=
  match s.pc p with
  | .rd =>
    match s.s3 with
    | some c => some (s.at p (.got c))
    | none => some s
  | .got c => some ({ s with loc := c }.at p .fill)
  | .fill =>
    match s.hd.st with
    | .loading => some (s.at p .claim)
    | .notLoaded => some ((s.chg .loading).at p .claim)
    | .loaded => some (s.at p .rdone)
    | .evicting => some s
  | .claim => some ((s.chg .loaded).at p .rdone)
  | .rdone => some (s.at p .idle)
  | .wr _ => some ((s.chg .writing).at p .up)
  | .up => some (s.at p (.sent s.loc))
  | .sent c => some ({ s with s3 := some c }.at p .ok)
  | .ok => some ((s.chg .written).at p .wdone)
  | .wdone => some (s.at p .idle)
  | .ev => some ({ s with loc := 0 }.at p .zero)
  | .zero => some ((s.chg .gone).at p .idle)
  | _ => none

/-- A worker ends in the middle of its task (`ereport(FATAL)`, for one) and is started again with it.
src/s3/worker.c:966-969. -/
def die (s : St) (p : Nat) : Option St :=
  match s.pc p with
  | .rd | .got _ | .fill | .claim | .rdone => some (s.at p .rd)
  | .wr _ => some s
  | .up | .sent _ | .ok | .wdone => some (s.at p (.wr true))
  | _ => none

/-- One step of process `p`.  `lock` is `s3_header_lock_part` (src/s3/headers.c:670-722) with
`s3_schedule_file_part_read` (src/s3/worker.c:703-715); a process which finds the part Loading or Evicting waits.
`unlock` is `s3_header_unlock_part` (src/s3/headers.c:807-835); a process which has written sets the flag
(src/btree/io.c:645, 662, 737, 754).  `sched` is `s3_header_mark_part_scheduled_for_write` (src/s3/headers.c:837-861).
`err` is an error while the part is read or put, src/s3/worker.c:425-429.  `evict` is src/s3/headers.c:1280-1291. -/
def step (s : St) (p : Nat) : Act → Option St
  | .lock =>
    if s.pc p = .idle then
      match s.hd.st with
      | .loaded => some ((s.chg .lock).at p (.held false))
      | .notLoaded => some ((s.chg .loading).at p .ask)
      | _ => some s
    else none
  | .ask => if s.pc p = .ask then some ({ s with qr := s.qr + 1 }.at p .idle) else none
  | .write c =>
    match s.pc p with
    | .held _ => some ({ s with loc := c + 1, cur := c + 1 }.at p (.held true))
    | _ => none
  | .unlock =>
    match s.pc p with
    | .held w => some ((s.chg (.unlock w)).at p .idle)
    | _ => none
  | .sched =>
    if s.pc p = .idle then
      if s.hd.dirty && !s.hd.sched then some ((s.chg .sched).at p .put) else some s
    else none
  | .put => if s.pc p = .put then some ({ s with qw := s.qw + 1 }.at p .idle) else none
  | .pickR => if s.pc p = .idle ∧ 0 < s.qr then some ({ s with qr := s.qr - 1 }.at p .rd) else none
  | .pickW => if s.pc p = .idle ∧ 0 < s.qw then some ({ s with qw := s.qw - 1 }.at p (.wr false)) else none
  | .go => go s p
  | .die => die s p
  | .err =>
    match s.pc p with
    | .up | .sent _ => some ((s.chg .notWritten).at p (.wr true))
    | _ => none
  | .evict =>
    if s.pc p = .idle then
      if s.hd.evictable then some ((s.chg .evict).at p .ev) else some (s.chg .age)
    else none

/-- A run of the processes below `n`. -/
def run (n : Nat) (s : St) : List (Nat × Act) → Option St
  | [] => some s
  | (p, a) :: es =>
    if p < n then
      match step s p a with
      | none => none
      | some s' => run n s' es
    else none

/-- How many of the processes below `n`. -/
def count (f : Nat → Bool) : Nat → Nat
  | 0 => 0
  | n + 1 => count f n + if f n then 1 else 0

/-- The process has the part locked. -/
def Pc.isHeld : Pc → Bool
  | .held _ => true
  | _ => false

/-- The process has an upload under way, or one it has to begin again. -/
def Pc.isUp : Pc → Bool
  | .wr true | .up | .sent _ | .ok => true
  | _ => false

/-- The process has an upload scheduled which nobody has begun. -/
def Pc.isTask : Pc → Bool
  | .put | .wr false => true
  | _ => false

/-- A step which does not meet one of the failures of this protocol: no worker is restarted between the last mark
and the erasure of its task; no upload of the part begins while another one is under way or has to be begun
again, nor is one begun again while another one is scheduled; a part which holds no data is not evicted. -/
def fine (n : Nat) (s : St) (p : Nat) (a : Act) : Prop :=
  (a = .die → s.pc p ≠ .rdone ∧ s.pc p ≠ .wdone) ∧
  (a = .go → ∀ b, s.pc p = .wr b →
    (∀ q, q < n → q ≠ p → (s.pc q).isUp = false) ∧
    (b = true → s.qw = 0 ∧ ∀ q, q < n → (s.pc q).isTask = false)) ∧
  (a = .evict → s.hd.evictable = true → s.cur ≠ 0)

/-- All steps of a run are such. -/
def allFine (n : Nat) (s : St) : List (Nat × Act) → Prop
  | [] => True
  | (p, a) :: es => fine n s p a ∧ ∀ s', step s p a = some s' → allFine n s' es

end Verif.S3Parts
