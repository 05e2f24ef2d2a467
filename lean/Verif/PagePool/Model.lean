/-!
# Page pools (src/utils/page_pool.c, include/utils/page_pool.h)

The shared pool (`OPagePool`) used by any number of processes at once, and the
local pool (`LocalPagePool`) of one backend.
-/

namespace Verif.PagePool

/-- Number of reservation kinds, `PPOOL_RESERVE_COUNT`, include/utils/page_pool.h:29. -/
def KINDS : Nat := 4

/-- Sum of `numPagesReserved` over the kinds.  include/utils/page_pool.h:66-71. -/
def total4 (r : Nat → Nat) : Nat := r 0 + r 1 + r 2 + r 3

/-- The sum `o_ppool_release_reserved` builds, src/utils/page_pool.c:230-237 (and
640-646 for the local pool): reservations of the kinds in `mask`. -/
def masked4 (mask : Nat) (r : Nat → Nat) : Nat :=
  total4 (fun k => if mask.testBit k then r k else 0)

/-! ## Shared pool -/

/-- Where a process is inside a pool function, between two atomic operations:
`back n` after the failed `pg_atomic_sub_fetch_u64` of line 190, before the add of
line 192; `alloc` in `o_ppool_alloc_page` after line 284, inside
`ucm_occupy_free_page`; `freed` in `o_ppool_free_page` between lines 330 and 332. -/
inductive Pc where
  | idle
  | back (n : Nat)
  | alloc
  | freed
deriving DecidableEq, Repr

/-- One process: its copy of `pool->numPagesReserved`
(include/utils/page_pool.h:66-71; the array is in process memory). -/
structure Proc where
  res : Nat → Nat
  pc : Pc

/-- The pool: `avail` is `availablePagesCount` (an unsigned 64-bit counter whose
sign bit is tested; modelled as an integer, exact as long as fewer than 2^63 pages
are being reserved), `used` tells for each page whether its usage count is not
`UCM_FREE_PAGES_LEVEL`. -/
structure Pool where
  avail : Int
  used : List Bool
  procs : List Proc

/-- Initial state: `availablePagesCount = size`, src/utils/page_pool.c:147-152, all
pages free. -/
def Pool.init (size nproc : Nat) : Pool :=
  { avail := size,
    used := List.replicate size false,
    procs := List.replicate nproc { res := fun _ => 0, pc := .idle } }

/-- Atomic steps of process `p`.  src/utils/page_pool.c:176-333. -/
inductive Op where
  /-- `o_ppool_reserve_pages`, line 190, with the `count` of line 184; a retry of
  the loop after maintenance is another `sub` with the same count. -/
  | sub (p kind n : Nat)
  /-- line 192 -/
  | addBack (p : Nat)
  /-- `o_ppool_release_reserved`, 223-240 -/
  | release (p mask : Nat)
  /-- `o_ppool_alloc_page`, 283-284 -/
  | take (p kind : Nat)
  /-- the successful compare-and-exchange inside `ucm_occupy_free_page` on page `b`
  (src/utils/ucm.c:570-574) -/
  | occupy (p b : Nat)
  /-- `o_ppool_free_page`, line 330, on page `b`; maintenance (evictions and
  merges) frees its pages this way too -/
  | free (p b : Nat)
  /-- `o_ppool_free_page`, line 332 -/
  | count (p : Nat)
deriving Repr

/-- `count -= pool->numPagesReserved[kind]`, src/utils/page_pool.c:184 = 613: what
is still to be reserved (0 when the reservation of that kind suffices). -/
def needed (r : Nat → Nat) (kind count : Nat) : Nat := count - r kind

/-- One atomic step, src/utils/page_pool.c:176-333.  Calls that break an `Assert`
of the code or the caller's obligations (allocating without a reservation, line
283; freeing a page that is not in use) are not executions of the system and leave
the state unchanged here. -/
def step (s : Pool) : Op → Pool
  | .sub p kind n =>
    match s.procs[p]? with
    | some pr =>
      if pr.pc = .idle ∧ kind < KINDS ∧ 0 < n then
        if s.avail - n < 0 then
          { s with
            avail := s.avail - n,
            procs := s.procs.set p { pr with pc := .back n } }
        else
          { s with
            avail := s.avail - n,
            procs := s.procs.set p
              { pr with res := fun k => if k = kind then pr.res k + n else pr.res k } }
      else s
    | none => s
  | .addBack p =>
    match s.procs[p]? with
    | some pr =>
      match pr.pc with
      | .back n =>
        { s with
          avail := s.avail + n,
          procs := s.procs.set p { pr with pc := .idle } }
      | _ => s
    | none => s
  | .release p mask =>
    match s.procs[p]? with
    | some pr =>
      if pr.pc = .idle then
        { s with
          avail := s.avail + masked4 mask pr.res,
          procs := s.procs.set p
            { pr with res := fun k => if mask.testBit k ∧ k < KINDS then 0 else pr.res k } }
      else s
    | none => s
  | .take p kind =>
    match s.procs[p]? with
    | some pr =>
      if pr.pc = .idle ∧ kind < KINDS ∧ 0 < pr.res kind then
        { s with
          procs := s.procs.set p
            { res := fun k => if k = kind then pr.res k - 1 else pr.res k, pc := .alloc } }
      else s
    | none => s
  | .occupy p b =>
    match s.procs[p]? with
    | some pr =>
      if pr.pc = .alloc ∧ s.used[b]? = some false then
        { s with
          used := s.used.set b true,
          procs := s.procs.set p { pr with pc := .idle } }
      else s
    | none => s
  | .free p b =>
    match s.procs[p]? with
    | some pr =>
      if pr.pc = .idle ∧ s.used[b]? = some true then
        { s with
          used := s.used.set b false,
          procs := s.procs.set p { pr with pc := .freed } }
      else s
    | none => s
  | .count p =>
    match s.procs[p]? with
    | some pr =>
      if pr.pc = .freed then
        { s with
          avail := s.avail + 1,
          procs := s.procs.set p { pr with pc := .idle } }
      else s
    | none => s

/-- Any interleaving of atomic steps of any number of processes.
Auxiliary of the model, without counterpart in /repo. -/
def run (size nproc : Nat) (ops : List Op) : Pool := ops.foldl step (Pool.init size nproc)

/-! ## Local pool -/

/-- `uint32` arithmetic. -/
def u32 (n : Int) : Nat := (n % 4294967296).toNat

/-- `availablePagesCount & ((uint32) 1 << 31)`, src/utils/page_pool.c:618. -/
def negative (n : Nat) : Bool := decide (2147483648 ≤ n)

/-- `LocalPagePool`, include/utils/page_pool.h:173-185: `avail` is
`availablePagesCount` (uint32), `slots[i]` tells whether `local_ppool_pages[i]` is
not NULL, `cur` is `alloc_current_slot`.  Usage counts and the eviction slot only
decide which page is evicted and are left out. -/
structure Local where
  avail : Nat
  slots : List Bool
  cur : Nat
  res : Nat → Nat

/-- `local_ppool_init`, src/utils/page_pool.c:542-565. -/
def Local.init (size : Nat) : Local :=
  { avail := size, slots := List.replicate size false, cur := 0, res := fun _ => 0 }

/-- `local_ppool_free_page`, src/utils/page_pool.c:596-606, on a slot in use. -/
def Local.free (s : Local) (i : Nat) : Local :=
  if s.slots[i]? = some true then
    { s with slots := s.slots.set i false, avail := u32 (s.avail + 1) }
  else s

/-- Outcome of a local pool call.  src/utils/page_pool.c:567-649. -/
inductive Res where
  | ok (s : Local)
  /-- `ereport(ERROR)` of line 621 -/
  | error (s : Local)
  /-- `pg_unreachable()` of line 593 reached: undefined behaviour -/
  | undef

/-- The loop of `local_ppool_reserve_pages`, src/utils/page_pool.c:618-629.  What
`local_ppool_run_maintenance` (686-778) does is an input: `evict` lists the slots
it evicts in successive calls, at the end of the list it returns false. -/
def reserveLoop (s : Local) (kind n : Nat) : List Nat → Res
  | [] =>
    if negative s.avail then .error s
    else .ok { s with res := fun k => if k = kind then s.res k + n else s.res k }
  | i :: evict =>
    if negative s.avail then reserveLoop (s.free i) kind n evict
    else .ok { s with res := fun k => if k = kind then s.res k + n else s.res k }

/-- `local_ppool_reserve_pages`, src/utils/page_pool.c:608-630. -/
def Local.reserve (s : Local) (kind count : Nat) (evict : List Nat) : Res :=
  if needed s.res kind count = 0 then .ok s
  else
    reserveLoop { s with avail := u32 ((s.avail : Int) - needed s.res kind count) } kind
      (needed s.res kind count) evict

/-- `local_ppool_release_reserved`, src/utils/page_pool.c:632-649. -/
def Local.release (s : Local) (mask : Nat) : Local :=
  { s with
    avail := u32 (s.avail + masked4 mask s.res),
    res := fun k => if mask.testBit k ∧ k < KINDS then 0 else s.res k }

/-- The do-while loop of `local_ppool_alloc_page`, src/utils/page_pool.c:579-591,
from slot `i` on, at most `fuel` turns: the slot found. -/
def findSlot (slots : List Bool) (start : Nat) : Nat → Nat → Option Nat
  | 0, _ => none
  | fuel + 1, i =>
    let i' := if i + 1 ≥ slots.length then 0 else i + 1
    if slots[i']? = some false then some i'
    else if i' = start then none
    else findSlot slots start fuel i'

/-- `local_ppool_alloc_page`, src/utils/page_pool.c:567-594; called with a
reservation of that kind (the `Assert` of line 575). -/
def Local.alloc (s : Local) (kind : Nat) : Res :=
  match findSlot s.slots s.cur (s.slots.length + 1) s.cur with
  | some i =>
    .ok { s with
          slots := s.slots.set i true, cur := i,
          res := fun k => if k = kind then s.res k - 1 else s.res k }
  | none => .undef

/-- Calls of the local pool's interface.  src/utils/page_pool.c:567-649. -/
inductive LOp where
  | reserve (kind count : Nat) (evict : List Nat)
  | release (mask : Nat)
  | alloc (kind : Nat)
  | free (i : Nat)
deriving Repr

/-- One call.  An `alloc` without a reservation breaks the `Assert` of line 575
and is not an execution of the system; it leaves the state unchanged here. -/
def lstep (s : Local) : LOp → Res
  | .reserve kind count evict => if kind < KINDS then s.reserve kind count evict else .ok s
  | .release mask => .ok (s.release mask)
  | .alloc kind => if kind < KINDS ∧ 0 < s.res kind then s.alloc kind else .ok s
  | .free i => .ok (s.free i)

/-- A sequence of calls in one backend; an error leaves the pool as it is and the
backend goes on with its next transaction.  `errs` counts the errors.  `none`
after undefined behaviour.  Auxiliary of the model, without counterpart in /repo. -/
def lrun (s : Local) (errs : Nat) : List LOp → Option (Local × Nat)
  | [] => some (s, errs)
  | o :: ops =>
    match lstep s o with
    | .ok s' => lrun s' errs ops
    | .error s' => lrun s' (errs + 1) ops
    | .undef => none

end Verif.PagePool
