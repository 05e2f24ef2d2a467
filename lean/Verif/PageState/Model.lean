/-!
# Page locks, wait lists and unlocked reads (src/btree/page_state.c, page_contents.c)

Any number of backends act on any number of pages.  One step of the model is one
access of the code to the shared state word of a page, one iteration of the loop
of `unlock_page_internal` over the wait list, one wake-up, or one semaphore
operation; steps of different backends interleave freely.

Simplifications, used throughout:
* the 64-bit state word is represented by its fields (`Word`), see `PageState/Bits.lean`
  for the proof that the masks of include/btree/page_state.h address them;
* memory is sequentially consistent (the code places barriers at
  page_state.c:1161, 1178, 1186 and page_contents.c:157, 164, 196);
* pages of the local pool are not locked (page_state.c:418 and others) and are
  left out;
* the array `myLockedPages` is a list without the limit of 8 entries
  (`Assert`, page_state.c:99).
-/

namespace Verif.PageState

/-- Pointwise update of a function: a store into one array element.
Auxiliary of the model, without counterpart in /repo. -/
def upd {α : Type} (f : Nat → α) (a : Nat) (v : α) : Nat → α :=
  fun x => if x = a then v else f x

/-- Fields of `OrioleDBPageHeader.state`, include/btree/page_state.h:21-31: the
newest waiter (bits 0-17, `none` for `PAGE_STATE_INVALID_PROCNO`), the locked
flag, the no-read flag, the 32-bit change count and the usage count. -/
structure Word where
  tail : Option Nat
  locked : Bool
  noRead : Bool
  cc : Nat
  usage : Nat
deriving DecidableEq, Repr

/-- `OPageWaiterStatus`, include/btree/page_contents.h:425-431. -/
inductive Status where
  | exclusive | nonExclusive | insert | wakeUp
deriving DecidableEq, Repr

/-- What a waiting function waits for: `lock_page` and `try_lock_page_and_check`
(page_state.c:411, 468), `lock_page_with_tuple` (537),
`page_wait_for_read_enable` (638), `page_wait_for_changecount` (678) with the
change count taken from its argument. -/
inductive Kind where
  | lock | insert | read
  | change (old : Nat)
deriving DecidableEq, Repr

/-- The status a waiter of each kind queues with, page_state.c:153, 289, 344, 383. -/
def Kind.status : Kind → Status
  | .lock => .exclusive
  | .insert => .insert
  | .read => .nonExclusive
  | .change _ => .nonExclusive

/-- Does a waiter of this kind try to lock the page?
src/btree/page_state.c:129-180, 190-320, 325-400. -/
def Kind.locks : Kind → Bool
  | .lock => true
  | .insert => true
  | .read => false
  | .change _ => false

/-- The tests at page_state.c:146 and 212 (locked), 337 (no-read flag) and
375-376 (change count unchanged): must the caller queue itself, given state `w`? -/
def Kind.mustWait (k : Kind) (w : Word) : Bool :=
  match k with
  | .lock => w.locked
  | .insert => w.locked
  | .read => w.noRead
  | .change old => w.cc == old

/-- Local variables of `unlock_page_internal`, page_state.c:1010-1039, with the
page, the argument `split` and the value `state` of the word last read; `tail`
is `s.tail`. -/
structure Unl where
  b : Nat
  split : Bool
  s : Word
  cur : Option Nat
  prev : Option Nat
  newTail : Option Nat
  excl : Option Nat
  exclPrev : Option Nat
  wakeHead : Option Nat
  prevTail : Option Nat
  patch : Option Nat
  exclWoken : Bool
deriving DecidableEq, Repr

/-- Where a backend is.  `start`, `loop`, `casLock`, `casQueue` and `sleep` are
the points of the waiting functions before the first read of the state word,
after a read of it, before the two kinds of compare-and-exchange, and in
`PGSemaphoreLock`.  `uread`, `walk`, `ucas`, `wake`, `post` are the points of
`unlock_page_internal` before its read of the state word (line 1025), in the loop
over the list (1044), before the compare-and-exchange (1144), and in the loop
that wakes (1163) before and after `status` is set.  `rd` is `try_copy_page`
between its two reads of the state word (page_contents.c:153, 197), with the
first state and the words copied so far; the number `v0` is a history variable,
the value of `ver` when the copy began.  `crash` is an access outside
`lockerStates`. -/
inductive Pc where
  | idle
  | start (b : Nat) (k : Kind)
  | loop (b : Nat) (k : Kind) (s : Word)
  | casLock (b : Nat) (k : Kind) (s : Word)
  | casQueue (b : Nat) (k : Kind) (s : Word)
  | sleep (b : Nat) (k : Kind)
  | uread (b : Nat) (split : Bool)
  | walk (u : Unl)
  | ucas (u : Unl)
  | wake (b : Nat) (h : Option Nat)
  | post (b : Nat) (q : Nat) (nx : Option Nat)
  | rd (b : Nat) (s1 : Word) (v0 : Nat) (img : Nat → Option Nat)
  | crash

/-- Shared memory and the private variables of all backends.

`word b` is the state word and `mem b` the words of page `b`; `status`,
`inserted`, `next` are the fields of `lockerStates[p]`
(include/btree/page_contents.h:440-463); `sem p` is the count of the semaphore of
backend `p`, `extra p` its local `extraWaits`, `held p` its `myLockedPages`
(page_state.c:49-58) with the remembered states.

`ver b`, `recv p` and `used p` are history variables no step reads: the number of
times the change count of the page was raised, the number of times the semaphore
of `p` was raised by somebody else, and the number of waits of `p` that ended
with a decrement of its semaphore. -/
structure St where
  word : Nat → Word
  mem : Nat → Nat → Nat
  status : Nat → Status
  inserted : Nat → Bool
  next : Nat → Option Nat
  sem : Nat → Nat
  extra : Nat → Int
  held : Nat → List (Nat × Word)
  pc : Nat → Pc
  ver : Nat → Nat
  recv : Nat → Nat
  used : Nat → Nat

/-- The initial state, src/orioledb.c:1541: no waiter, unlocked, change count 0,
usage count `UCM_FREE_PAGES_LEVEL`; `lockerStates` is zeroed shared memory
(`OPageWaitExclusive`, next 0). -/
def init : St where
  word := fun _ => ⟨none, false, false, 0, 7⟩
  mem := fun _ _ => 0
  status := fun _ => .exclusive
  inserted := fun _ => false
  next := fun _ => some 0
  sem := fun _ => 0
  extra := fun _ => 0
  held := fun _ => []
  pc := fun _ => .idle
  ver := fun _ => 0
  recv := fun _ => 0
  used := fun _ => 0

/-- `get_my_locked_page_index(blkno) >= 0`, page_state.c:84-93. -/
def St.holds (s : St) (p b : Nat) : Bool := (s.held p).any (fun e => e.1 == b)

/-- `my_locked_page_get_state`, page_state.c:119-126. -/
def St.heldState (s : St) (p b : Nat) : Option Word :=
  ((s.held p).find? (fun e => e.1 == b)).map (·.2)

/-- Move backend `p` to another point.  Auxiliary of the model, without counterpart in /repo. -/
def St.goto (s : St) (p : Nat) (c : Pc) : St := { s with pc := upd s.pc p c }

/-- `while (extraWaits-- > 0) PGSemaphoreUnlock(MyProc->sem)`, page_state.c:450,
513, 589, 671, 721: the semaphore is raised `max extraWaits 0` times. -/
def St.repost (s : St) (p : Nat) : St :=
  { s with sem := upd s.sem p (s.sem p + (s.extra p).toNat) }

/-- The value the loop above leaves in `extraWaits`: the test is repeated after
the last decrement, so the variable ends below zero.  src/btree/page_state.c:450, 513, 589, 671, 721. -/
def afterRepost (e : Int) : Int := if e ≥ 0 then -1 else e - 1

/-- One round of the waiting loops after a value `w` of the state word is known:
page_state.c:142-157 (lock), 208-297 (insert), 333-348 (read), 371-387 (change).
Queueing writes `status` and `next` of the backend's own entry.  For an insert
waiter the choice `ch` stands for what the page image says (218-255): 0 — queue,
1 — leave with `LockPageResultSplitDetected`, `b' + 2` — continue on the right
sibling `b'`.  A reader or change waiter that need not wait returns:
`page_wait_for_read_enable` hands back the extra wake-ups (671), the early
return of `page_wait_for_changecount` (694) does not. -/
def stepLoop (s : St) (p b : Nat) (k : Kind) (w : Word) (ch : Nat) : St :=
  if k.mustWait w then
    if k = .insert ∧ ch ≠ 0 then
      if ch = 1 then s.goto p .idle
      else if s.holds p (ch - 2) then s else s.goto p (.start (ch - 2) .insert)
    else
      { s with
        status := upd s.status p k.status,
        next := upd s.next p w.tail,
        pc := upd s.pc p (.casQueue b k w) }
  else
    match k with
    | .lock => s.goto p (.casLock b k w)
    | .insert => s.goto p (.casLock b k w)
    | .read => (s.repost p).goto p .idle
    | .change _ => s.goto p .idle

/-- The compare-and-exchange at page_state.c:165 / 305 with
`newState = O_PAGE_STATE_LOCK(state)`, and `my_locked_page_add` (445, 508, 632).
`ch` is the usage count `ucm_update_state` chooses (161, 301).  `lock_page` then
hands back extra wake-ups (450). -/
def stepCasLock (s : St) (p b : Nat) (k : Kind) (w : Word) (ch : Nat) : St :=
  if s.word b = w then
    let s1 := { s with
      word := upd s.word b { w with locked := true, usage := ch },
      held := upd s.held p ((b, { w with locked := true }) :: s.held p),
      pc := upd s.pc p .idle }
    match k with
    | .lock => s1.repost p
    | _ => s1
  else s.goto p (.loop b k (s.word b))

/-- The compare-and-exchange at page_state.c:165, 305, 350, 395 that makes the
backend the tail of the wait list. -/
def stepCasQueue (s : St) (p b : Nat) (k : Kind) (w : Word) (ch : Nat) : St :=
  if s.word b = w then
    { s with
      word := upd s.word b { w with tail := some p, usage := ch },
      pc := upd s.pc p (.sleep b k) }
  else s.goto p (.loop b k (s.word b))

/-- One `PGSemaphoreLock` of a queued backend and the test of its status:
page_state.c:434-443 (lock), 577-627 (insert), 657-666 (read), 699-716 (change).
It blocks while the count is zero. -/
def stepSleep (s : St) (p b : Nat) (k : Kind) : St :=
  if s.sem p = 0 then s
  else
    let s1 := { s with sem := upd s.sem p (s.sem p - 1) }
    if s.status p = .wakeUp then
      let s2 := { s1 with used := upd s.used p (s.used p + 1) }
      match k with
      | .lock => s2.goto p (.start b k)
      | .read => s2.goto p (.start b k)
      | .insert =>
        let s3 := { s2.repost p with extra := upd s2.extra p (afterRepost (s.extra p)) }
        if s.inserted p then
          { s3 with inserted := upd s.inserted p false, pc := upd s.pc p .idle }
        else s3.goto p (.start b k)
      | .change old =>
        if (s.word b).cc = old then s2.goto p (.start b k)
        else (s2.repost p).goto p .idle
    else { s1 with extra := upd s.extra p (s.extra p + 1) }

/-- The value of the loop variables at the top of the outer loop,
page_state.c:1030-1039. -/
def unlStart (b : Nat) (split : Bool) (w : Word) (wakeHead prevTail patch : Option Nat)
    (exclWoken : Bool) : Unl :=
  { b := b, split := split, s := w, cur := w.tail, prev := none, newTail := w.tail,
    excl := none, exclPrev := none, wakeHead := wakeHead, prevTail := prevTail,
    patch := patch, exclWoken := exclWoken }

/-- `shouldWake`, page_state.c:1049-1052. -/
def shouldWake (s : St) (split : Bool) (c : Nat) : Bool :=
  s.inserted c || (s.status c == .nonExclusive) || (split && (s.status c == .insert))

/-- One iteration of the loop over the wait list at node `c`, page_state.c:1047-1081. -/
def walkNode (s : St) (p : Nat) (u : Unl) (c : Nat) : St :=
  if shouldWake s u.split c then
    let nx := s.next c
    let u1 : Unl := { u with
      newTail := if u.prev = none then nx else u.newTail, wakeHead := some c, cur := nx }
    let next1 := match u.prev with
      | none => s.next
      | some q => upd s.next q nx
    { s with next := upd next1 c u.wakeHead, pc := upd s.pc p (.walk u1) }
  else
    let first := u.exclWoken = false ∧ u.excl = none
    let u1 : Unl := { u with
      excl := if first then some c else u.excl,
      exclPrev := if first then u.prev else u.exclPrev,
      prev := some c, cur := s.next c }
    s.goto p (.walk u1)

/-- Step 2 of the unlock, page_state.c:1087-1105: move the remembered exclusive
waiter to the wake list. -/
def unlExcl (next : Nat → Option Nat) (u : Unl) : (Nat → Option Nat) × Unl :=
  match u.excl with
  | none => (next, u)
  | some e =>
    if u.exclWoken then (next, u)
    else
      let next1 := match u.exclPrev with
        | none => next
        | some q => upd next q (next e)
      (upd next1 e u.wakeHead,
       { u with
         exclWoken := true,
         newTail := if u.exclPrev = none then next e else u.newTail,
         wakeHead := some e,
         prev := if u.prev = some e then u.exclPrev else u.prev })

/-- Step 3 of the unlock, page_state.c:1110-1121: re-apply the patch of the
previous failed attempt. -/
def unlPatch (next : Nat → Option Nat) (u : Unl) : (Nat → Option Nat) × Unl :=
  if u.prevTail = u.patch then (next, u)
  else
    match u.prev with
    | none => (next, { u with newTail := u.patch })
    | some q => (upd next q u.patch, u)

/-- One step of the walk: an iteration, or, at the end of the list, steps 2 and 3. -/
def stepWalk (s : St) (p : Nat) (u : Unl) : St :=
  if u.cur = u.prevTail then
    let r := unlExcl s.next u
    let r2 := unlPatch r.1 r.2
    { s with next := r2.1, pc := upd s.pc p (.ucas r2.2) }
  else
    match u.cur with
    | none => s.goto p .crash
    | some c => walkNode s p u c

/-- `newState` at page_state.c:1126-1142. -/
def unlWord (w : Word) (newTail : Option Nat) : Word :=
  { tail := newTail, locked := false, noRead := false,
    cc := if w.noRead then (w.cc + 1) % 4294967296 else w.cc, usage := w.usage }

/-- The compare-and-exchange of the unlock, page_state.c:1144-1156. -/
def stepUcas (s : St) (p : Nat) (u : Unl) : St :=
  if s.word u.b = u.s then
    { s with
      word := upd s.word u.b (unlWord u.s u.newTail),
      ver := upd s.ver u.b (if u.s.noRead then s.ver u.b + 1 else s.ver u.b),
      held := upd s.held p ((s.held p).filter (fun e => e.1 != u.b)),
      pc := upd s.pc p (.wake u.b u.wakeHead) }
  else
    s.goto p (.walk (unlStart u.b u.split (s.word u.b) u.wakeHead u.s.tail u.newTail u.exclWoken))

/-- A step of backend `p` from where it is; `ch` resolves the choices the model
leaves open.  src/btree/page_state.c:129-1206. -/
def stepGo (s : St) (p : Nat) (ch : Nat) : St :=
  match s.pc p with
  | .idle => s
  | .start b k => s.goto p (.loop b k (s.word b))
  | .loop b k w => stepLoop s p b k w ch
  | .casLock b k w => stepCasLock s p b k w ch
  | .casQueue b k w => stepCasQueue s p b k w ch
  | .sleep b k => stepSleep s p b k
  | .uread b split => s.goto p (.walk (unlStart b split (s.word b) none none none false))
  | .walk u => stepWalk s p u
  | .ucas u => stepUcas s p u
  | .wake _ none => s.goto p .idle
  | .wake b (some q) =>
    -- page_state.c:1170-1180
    { s with status := upd s.status q .wakeUp, pc := upd s.pc p (.post b q (s.next q)) }
  | .post b q nx =>
    -- page_state.c:1188-1191
    { s with
      sem := upd s.sem q (s.sem q + 1), recv := upd s.recv q (s.recv q + 1),
      pc := upd s.pc p (.wake b nx) }
  | .rd b s1 v0 img =>
    -- copy one word, page_contents.c:167, 177 and page_chunks.c:55, 161
    s.goto p (.rd b s1 v0 (upd img ch (some (s.mem b ch))))
  | .crash => s

/-- The loop of `get_waiters_with_tuples`, page_state.c:875-892, over at most
`fuel` list nodes; the tests of page change count and relation, and the limit on
the result, are left to the caller's choice of a subset. -/
def follow (next : Nat → Option Nat) : Nat → Option Nat → List Nat
  | 0, _ => []
  | _ + 1, none => []
  | n + 1, some c => c :: follow next n (next c)

/-- Is the backend between two calls (it may hold page locks)?
Auxiliary of the model, without counterpart in /repo. -/
def St.isIdle (s : St) (p : Nat) : Bool :=
  match s.pc p with
  | .idle => true
  | _ => false

/-- Actions of the backends.

* `call p b k`: start of a waiting function; `lock_page` on a page the caller
  already holds is excluded by `Assert`, page_state.c:421, 484, 552.  For
  `page_wait_for_changecount` see `waitChange`.
* `waitChange p b cc`: `page_wait_for_changecount` for a state with change count
  `cc`; the parameter is declared `uint32` (page_state.c:678), which keeps the 12
  lowest bits of the change count.
* `tryLock p b ch`: `try_lock_page`, page_state.c:756-777.
* `unlock p b split`: `unlock_page` or `unlock_page_after_split`, 1198-1218.
* `block p b`: `page_block_reads`, 813-858.
* `write p b i v`: a change of one word of a page by the backend that locked it
  and blocked reads.
* `mark p b fuel sel`: `get_waiters_with_tuples` followed by
  `mark_waiter_tuples_inserted` (897-908) for the waiters selected by `sel`.
* `read p b`: `try_copy_page` up to its first read, page_contents.c:153-155.
* `accept p`: the second read and test, page_contents.c:197-201 (and
  page_chunks.c:167-170 for a chunk loaded later): on failure the copy is given
  up, on success it is kept and may be extended by further chunks.
* `drop p`: the reader has no more use for the copy.
* `touch b u`: a change of the usage count by any backend, src/utils/ucm.c:245-310.
* `signal p`, `take p`: the semaphore is raised or consumed by another user of it.
* `go p ch`: the backend continues. -/
inductive Act where
  | call (p b : Nat) (k : Kind)
  | waitChange (p b cc : Nat)
  | tryLock (p b ch : Nat)
  | unlock (p b : Nat) (split : Bool)
  | block (p b : Nat)
  | write (p b i v : Nat)
  | mark (p b fuel : Nat) (sel : Nat → Bool)
  | read (p b : Nat)
  | accept (p : Nat)
  | drop (p : Nat)
  | touch (b u : Nat)
  | signal (p : Nat)
  | take (p : Nat)
  | go (p ch : Nat)

/-- `page_block_reads` on a locked page, page_state.c:840-857. -/
def stepBlock (s : St) (p b : Nat) : St :=
  match s.heldState p b with
  | none => s
  | some w =>
    if w.noRead then s
    else
      { s with
        word := upd s.word b { s.word b with noRead := true },
        held := upd s.held p ((s.held p).map
          (fun e => if e.1 = b then (b, { s.word b with noRead := true }) else e)) }

/-- `mark_waiter_tuples_inserted` on the chosen waiters with status
`OPageWaitInsert`, page_state.c:879, 905-906. -/
def stepMark (s : St) (b fuel : Nat) (sel : Nat → Bool) : St :=
  let l := (follow s.next fuel (s.word b).tail).filter
    (fun q => (s.status q == .insert) && sel q)
  { s with inserted := fun q => s.inserted q || l.elem q }

/-- The second read of the state word and the test at page_contents.c:197-200. -/
def copyValid (s : St) (b : Nat) (s1 : Word) : Bool :=
  s1.cc == (s.word b).cc && !(s.word b).noRead

/-- The kinds `call` stands for (`page_wait_for_changecount`, page_state.c:678, is
`waitChange`). -/
def Kind.isCall : Kind → Bool
  | .change _ => false
  | _ => true

/-- One action.  An action that is not possible in the state leaves it as it is.
The lines are given at the functions called. -/
def step (s : St) : Act → St
  | .call p b k =>
    if s.isIdle p && !s.holds p b && k.isCall then
      { s with extra := upd s.extra p 0, pc := upd s.pc p (.start b k) }
    else s
  | .waitChange p b cc =>
    if s.isIdle p then
      { s with extra := upd s.extra p 0, pc := upd s.pc p (.start b (.change (cc % 4096))) }
    else s
  | .tryLock p b ch =>
    if s.isIdle p && !(s.word b).locked then
      { s with
        word := upd s.word b { s.word b with locked := true, usage := ch },
        held := upd s.held p ((b, { s.word b with locked := true }) :: s.held p) }
    else s
  | .unlock p b split =>
    if s.isIdle p && s.holds p b then s.goto p (.uread b split) else s
  | .block p b => if s.isIdle p then stepBlock s p b else s
  | .write p b i v =>
    if s.isIdle p && s.holds p b && (s.word b).noRead then
      { s with mem := upd s.mem b (upd (s.mem b) i v) }
    else s
  | .mark p b fuel sel =>
    if s.isIdle p && s.holds p b then stepMark s b fuel sel else s
  | .read p b =>
    if s.isIdle p && !(s.word b).noRead then
      s.goto p (.rd b (s.word b) (s.ver b) (fun _ => none))
    else s
  | .accept p =>
    match s.pc p with
    | .rd b s1 _ _ => if copyValid s b s1 then s else s.goto p .idle
    | _ => s
  | .drop p =>
    match s.pc p with
    | .rd _ _ _ _ => s.goto p .idle
    | _ => s
  | .touch b u => { s with word := upd s.word b { s.word b with usage := u } }
  | .signal p => { s with sem := upd s.sem p (s.sem p + 1), recv := upd s.recv p (s.recv p + 1) }
  | .take p =>
    if s.isIdle p && decide (0 < s.sem p) then
      { s with sem := upd s.sem p (s.sem p - 1), used := upd s.used p (s.used p + 1) }
    else s
  | .go p ch => stepGo s p ch

/-- Execution of a sequence of actions.  Auxiliary of the model, without counterpart in /repo. -/
def run (s : St) (as : List Act) : St := as.foldl step s

end Verif.PageState
