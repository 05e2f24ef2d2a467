/-!
# The S3 task queue: `src/s3/queue.c`

The ring is modelled in units of 4-byte words: the ring size is a multiple of 1024
bytes (src/s3/queue.c:73) and every caller passes a length that is a multiple of 4
(src/s3/worker.c:600, 629, 668, 725, 747, 777, 853, 881), so all locations are word
aligned.  A word is a natural number; location arithmetic is unbounded (64-bit
counters that never wrap in practice).
-/
namespace Verif.S3Queue

/-- A word of the ring.  `uint32`, src/s3/queue.c:157. -/
abbrev Word := Nat

/-- `LENGTH_ERASED_FLAG`, src/s3/queue.c:47. -/
def FLAG : Nat := 0x80000000

/-- `S3TaskQueueMeta` and `s3_queue_buffer`, src/s3/queue.c:26-51. -/
structure Q where
  mem : Nat → Word
  ins : Nat
  pick : Nat
  er : Nat

/-- `s3_queue_init_shmem`, src/s3/queue.c:67-91. -/
def Q.init : Q := { mem := fun _ => 0, ins := 0, pick := 0, er := 0 }

/-- `memcpy` into the ring buffer at a physical position.  src/s3/queue.c:130-149. -/
def blit (mem : Nat → Word) (pos : Nat) (data : List Word) : Nat → Word := fun i =>
  if pos ≤ i ∧ i < pos + data.length then data.getD (i - pos) 0 else mem i

/-- `n` words of the ring buffer from a physical position.  src/s3/queue.c:238-257. -/
def slice (mem : Nat → Word) (pos n : Nat) : List Word := (List.range n).map fun i => mem (pos + i)

/-- One word store.  src/s3/queue.c:157, 305, 312. -/
def set (mem : Nat → Word) (pos : Nat) (w : Word) : Nat → Word := fun i => if i = pos then w else mem i

/-- Writing a task body after its length word, in one or two pieces:
src/s3/queue.c:126-150 (`data` is the task), src/s3/queue.c:276-300 (`data` is
zeros). -/
def writeBody (N : Nat) (mem : Nat → Word) (loc : Nat) (data : List Word) : Nat → Word :=
  let total := data.length + 1
  if loc / N = (loc + total - 1) / N then blit mem (loc % N + 1) data
  else
    let first := N - loc % N
    blit (blit mem (loc % N + 1) (data.take (first - 1))) 0 (data.drop (first - 1))

/-- The first step of `s3_queue_put_task`, src/s3/queue.c:107-112. -/
def Q.reserve (q : Q) (data : List Word) : Q := { q with ins := q.ins + (data.length + 1) }

/-- The wait of `s3_queue_put_task` is over, src/s3/queue.c:118. -/
def Q.room (N : Nat) (q : Q) (loc : Nat) (data : List Word) : Prop :=
  ¬ loc + (data.length + 1) > q.er + N

instance (N : Nat) (q : Q) (loc : Nat) (data : List Word) : Decidable (q.room N loc data) :=
  inferInstanceAs (Decidable (¬ _))

/-- The rest of `s3_queue_put_task` after the wait, src/s3/queue.c:126-157.  One
step: nobody reads the body before the length word is stored. -/
def Q.fill (N : Nat) (q : Q) (loc : Nat) (data : List Word) : Q :=
  { q with mem := set (writeBody N q.mem loc data) (loc % N) (4 * (data.length + 1)) }

/-- `s3_queue_try_pick_task`, src/s3/queue.c:166-215: the picked location and the
new state.  The three reads and the final compare-and-swap are one step (the other
two locations only grow). -/
def Q.tryPick (N : Nat) (q : Q) : Option Nat × Q :=
  if q.pick ≥ q.ins then (none, q)
  else if q.pick + 1 ≥ q.er + N then (none, q)
  else
    let len := q.mem (q.pick % N)
    if len = 0 then (none, q)
    else (some q.pick, { q with pick := q.pick + len / 4 })

/-- `s3_queue_get_task`, src/s3/queue.c:220-261; `garbage` is the uninitialised
memory returned by `palloc`.  In the two-piece case the arguments of the first
`memcpy` are swapped (src/s3/queue.c:252-254): it copies the garbage into the ring. -/
def Q.get (N : Nat) (q : Q) (loc : Nat) (garbage : List Word) : List Word × Q :=
  let total := q.mem (loc % N) / 4
  let n := total - 1
  if loc / N = (loc + total - 1) / N then (slice q.mem (loc % N + 1) n, q)
  else
    let first := N - loc % N
    let head := (garbage ++ List.replicate n 0).take (first - 1)
    let mem := blit q.mem (loc % N + 1) head
    (head ++ slice mem 0 (total - first), { q with mem := mem })

/-- The part of `s3_queue_erase_task` before its loop, src/s3/queue.c:271-305; also
returns the length kept in the local variable `taskLen`. -/
def Q.eraseBody (N : Nat) (q : Q) (loc : Nat) : Q × Nat :=
  let total := q.mem (loc % N) / 4
  ({ q with mem := set (writeBody N q.mem loc (List.replicate (total - 1) 0)) (loc % N)
                     (4 * total + FLAG) }, total)

/-- The compare-and-swap of the loop of `s3_queue_erase_task`, src/s3/queue.c:308-310. -/
def Q.cas (q : Q) (loc total : Nat) : Option Q :=
  if q.er = loc then some { q with er := loc + total } else none

/-- The body of that loop, src/s3/queue.c:312-326: the new state and, if the next
task is erased as well, its location and length. -/
def Q.zero (N : Nat) (q : Q) (loc total : Nat) : Q × Option (Nat × Nat) :=
  let q := { q with mem := set q.mem (loc % N) 0 }
  let next := loc + total
  let len := q.mem (next % N)
  if len ≥ FLAG then (q, some (next, (len - FLAG) / 4)) else (q, none)

/-- The condition under which `s3_queue_wait_for_location` returns,
src/s3/queue.c:335-348. -/
def Q.waitDone (q : Q) (loc : Nat) : Prop := ¬ q.er ≤ loc

/-! ## The processes -/

/-- How far a task has got.  src/s3/queue.c:102-330. -/
inductive St where
  /-- location reserved, `s3_queue_put_task` has not stored the length yet -/
  | reserved
  | filled
  /-- taken by a worker (src/s3/worker.c:996-1000) -/
  | picked
  /-- body erased and flagged -/
  | flagged
  /-- `erasedLocation` has passed it -/
  | done
  deriving DecidableEq, Repr

/-- A task: its body (the argument of `s3_queue_put_task`, src/s3/queue.c:102-103) and how far it
has got. -/
structure Task where
  data : List Word
  st : St
  deriving DecidableEq, Repr

/-- Words taken in the ring, src/s3/queue.c:107. -/
def Task.len (t : Task) : Nat := t.data.length + 1

/-- Position of a process inside the loop of `s3_queue_erase_task`. -/
inductive Pc where
  /-- about to do the compare-and-swap -/
  | cas (loc total : Nat)
  /-- did it, about to store the zero length -/
  | zero (loc total : Nat)
  deriving DecidableEq, Repr

/-- The queue, the tasks in the order of their reservation (what the putting
processes and the workers know about them), the processes inside the loop of
`s3_queue_erase_task`; and the history of results. -/
structure S where
  q : Q
  tasks : List Task
  pcs : List Pc
  /-- the tasks put: location returned by `s3_queue_put_task` and body, oldest
  reservation first -/
  puts : List (Nat × List Word)
  /-- results of successful `s3_queue_try_pick_task`, oldest first -/
  picks : List Nat
  /-- results of `s3_queue_get_task`: location and returned body -/
  gets : List (Nat × List Word)

/-- An empty queue (`s3_queue_init_shmem`, src/s3/queue.c:80-90) and nobody using it. -/
def S.init : S := { q := Q.init, tasks := [], pcs := [], puts := [], picks := [], gets := [] }

/-- Total length of tasks.  src/s3/queue.c:107-112. -/
def total : List Task → Nat
  | [] => 0
  | t :: ts => t.len + total ts

/-- The location `s3_queue_put_task` returned for task number `k`. -/
def locOf (ts : List Task) (k : Nat) : Nat := total (ts.take k)

/-- Records how far task `k` has got (not in the code: the processes' own knowledge).
Auxiliary of the model, without counterpart in /repo. -/
def setSt (ts : List Task) (k : Nat) (st : St) : List Task := ts.modify k fun t => { t with st := st }

/-- Steps of the processes: putting (src/s3/queue.c:102-160), picking (166-215), getting (220-261)
and erasing (266-330) tasks. -/
inductive Op where
  /-- a process calls `s3_queue_put_task` and gets its location -/
  | reserve (data : List Word)
  /-- the process putting task `k` completes, if there is room -/
  | fill (k : Nat)
  | pick
  /-- the worker that picked task `k` gets it, src/s3/worker.c:283 -/
  | get (k : Nat) (garbage : List Word)
  /-- the worker that picked task `k` starts to erase it, src/s3/worker.c:586 -/
  | erase (k : Nat)
  /-- process `i` in the erasing loop makes one iteration (compare-and-swap, store
  and look at the next task) with nothing in between -/
  | advance (i : Nat)
  /-- only the compare-and-swap -/
  | casOnly (i : Nat)
  /-- only the rest of the iteration -/
  | zeroOnly (i : Nat)

/-- The body of the loop of `s3_queue_erase_task` by process `i`, src/s3/queue.c:312-326. -/
def S.zero (N : Nat) (s : S) (i loc tot : Nat) : S :=
  match s.q.zero N loc tot with
  | (q, some (l, n)) => { s with q := q, pcs := s.pcs.set i (.cas l n) }
  | (q, none) => { s with q := q, pcs := s.pcs.eraseIdx i }

/-- Number of tasks passed by `erasedLocation`.
Auxiliary of the model, without counterpart in /repo. -/
def doneCount (ts : List Task) : Nat := ts.countP fun t => t.st = .done

/-- One step; an operation that is not possible leaves the state as it is.
The lines are given at `Op`. -/
def S.step (N : Nat) (s : S) : Op → S
  | .reserve data =>
    { s with q := s.q.reserve data, tasks := s.tasks ++ [{ data := data, st := .reserved }],
             puts := s.puts ++ [(s.q.ins, data)] }
  | .fill k =>
    match s.tasks[k]? with
    | some ⟨data, .reserved⟩ =>
      if s.q.room N (locOf s.tasks k) data then
        { s with q := s.q.fill N (locOf s.tasks k) data, tasks := setSt s.tasks k .filled }
      else s
    | _ => s
  | .pick =>
    match s.q.tryPick N with
    | (some loc, q) =>
      { s with q := q, tasks := setSt s.tasks s.picks.length .picked, picks := s.picks ++ [loc] }
    | (none, q) => { s with q := q }
  | .get k garbage =>
    match s.tasks[k]? with
    | some ⟨_, .picked⟩ =>
      let r := s.q.get N (locOf s.tasks k) garbage
      { s with q := r.2, gets := s.gets ++ [(locOf s.tasks k, r.1)] }
    | _ => s
  | .erase k =>
    match s.tasks[k]? with
    | some ⟨_, .picked⟩ =>
      let r := s.q.eraseBody N (locOf s.tasks k)
      { s with q := r.1, tasks := setSt s.tasks k .flagged,
               pcs := s.pcs ++ [.cas (locOf s.tasks k) r.2] }
    | _ => s
  | .advance i =>
    match s.pcs[i]? with
    | some (.cas loc tot) =>
      match s.q.cas loc tot with
      | some q =>
        S.zero N { s with q := q, tasks := setSt s.tasks (doneCount s.tasks) .done } i loc tot
      | none => { s with pcs := s.pcs.eraseIdx i }
    | _ => s
  | .casOnly i =>
    match s.pcs[i]? with
    | some (.cas loc tot) =>
      match s.q.cas loc tot with
      | some q =>
        { s with q := q, tasks := setSt s.tasks (doneCount s.tasks) .done,
                 pcs := s.pcs.set i (.zero loc tot) }
      | none => { s with pcs := s.pcs.eraseIdx i }
    | _ => s
  | .zeroOnly i =>
    match s.pcs[i]? with
    | some (.zero loc tot) => S.zero N s i loc tot
    | _ => s

/-- Steps one after another.  Auxiliary of the model, without counterpart in /repo. -/
def S.run (N : Nat) (s : S) (ops : List Op) : S := ops.foldl (S.step N) s

end Verif.S3Queue
