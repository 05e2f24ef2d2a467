/-!
# The usage count map (src/utils/ucm.c, include/utils/ucm.h)

The map is a tree with 15 children per node, stored in one array of 32-bit
words.  A word holds eight 4-bit counters, one per usage level.  A leaf word
counts the pages of its group of 15 that have each level, a non-leaf word counts
the children whose counter of that level is not zero.

Simplification used throughout: a word is represented by its eight counters
(`node → level → Nat`) and not as a packed `uint32`; the code adds and subtracts
`1 << (4 * level)` only after testing that the field neither underflows nor
overflows (ucm.c:188), which is the condition `ready` below.
-/

namespace Verif.Ucm

/-- `UCM_FREE_PAGES_LEVEL`, include/utils/ucm.h:21. -/
def FREE : Nat := 7

/-- `UCM_INVALID_LEVEL`, include/utils/ucm.h:19: the page has no level (it is
allocated, but its usage count is not set yet). -/
def INVALID : Nat := 15

/-- The static part of `UsageCountMap`, include/utils/ucm.h:24-34.  `offset` is
taken to be 0 (it is only added to and subtracted from block numbers), `epoch`
is an argument of the search and `usageCounter` only decides how often a touch
raises the level, which the model leaves open. -/
structure Geom where
  size : Nat
  nonLeaf : Nat
  total : Nat
  rootFactor : Nat

/-- The loop of `estimate_ucm_space`, src/utils/ucm.c:52-59: arguments are `n`,
`n_non_leaf_vars` and `rootFactor`, the result the last two. -/
def estLoop (n nonLeaf rootFactor : Nat) : Nat × Nat :=
  if n > 15 then estLoop ((n + 14) / 15) ((nonLeaf + 1) * 15) (rootFactor * 15)
  else (nonLeaf, rootFactor)
termination_by n
decreasing_by omega

/-- `estimate_ucm_space`, src/utils/ucm.c:36-64 (the returned byte count is left
out; `int` does not overflow for any pool that fits in memory). -/
def geom (size : Nat) : Geom :=
  let n := (size + 14) / 15
  let r := estLoop n 0 15
  { size := size, nonLeaf := r.1, total := r.1 + n, rootFactor := r.2 }

/-- Number of `c < 15` with `f c`: what a loop over the 15 children of a node
(ucm.c:95) or over the 15 pages of a group adds up. -/
def count15 (f : Nat → Bool) : Nat := (List.range 15).countP f

/-- The free counter (`UCM_FREE_PAGES_LEVEL`) of word `i` after `init_ucm`,
src/utils/ucm.c:131-144 with `init_ucm_non_leaf_recursive`, 86-110, and
`get_value_frame`, 66-84; all other counters are 0. -/
def initFree (g : Geom) (i : Nat) : Nat :=
  if i < g.nonLeaf then
    count15 (fun c => decide (initFree g ((i + 1) * 15 + c) ≠ 0))
  else if i < g.total then min (g.size - (i - g.nonLeaf) * 15) 15
  else 0
termination_by g.nonLeaf - i
decreasing_by omega

/-- A process inside `ucm_inc_recursive(map, node, prev, next)`, before its
compare-and-exchange on `node`; src/utils/ucm.c:150-151. -/
structure Upd where
  node : Nat
  prev : Nat
  next : Nat
deriving DecidableEq, Repr

/-- Shared memory and the running updates.  `cnt` is `map->ucm`, `page p` is
`O_PAGE_STATE_GET_USAGE_COUNT` of the state word of page `p`
(include/btree/page_state.h:39); `pend` are the processes which changed the
level of a page and are on their way up the tree. -/
structure State where
  cnt : Nat → Nat → Nat
  page : Nat → Nat
  pend : List Upd

/-- State after `init_ucm` (src/utils/ucm.c:115-145) and the initialisation of the
page headers (src/orioledb.c:1541). -/
def initState (g : Geom) : State :=
  { cnt := fun i l => if l = FREE then initFree g i else 0,
    page := fun _ => FREE,
    pend := [] }

/-- The exit condition of the wait in `ucm_inc_recursive`, src/utils/ucm.c:188
and 194: the field `prev` can be decremented and the field `next` incremented.
For `UCM_INVALID_LEVEL` the masks are 0 (170-171, 181-182). -/
def ready (f : Nat → Nat) (prev next : Nat) : Prop :=
  (prev ≠ INVALID → 0 < f prev) ∧ (next ≠ INVALID → f next < 15)

instance (f : Nat → Nat) (prev next : Nat) : Decidable (ready f prev next) :=
  inferInstanceAs (Decidable (_ ∧ _))

/-- `new_val = val - prev_one + next_one`, src/utils/ucm.c:202. -/
def moved (f : Nat → Nat) (prev next : Nat) : Nat → Nat := fun l =>
  if l ≠ INVALID ∧ l = prev then f l - 1
  else if l ≠ INVALID ∧ l = next then f l + 1
  else f l

/-- What the recursive call of `ucm_inc_recursive` gets for the parent,
src/utils/ucm.c:208-211 (`f` is `val`, `moved f prev next` is `new_val`). -/
def parentUpd (f : Nat → Nat) (u : Upd) : Upd :=
  { node := u.node / 15 - 1,
    prev := if u.prev = INVALID ∨ moved f u.prev u.next u.prev = 0 then u.prev
            else INVALID,
    next := if u.next = INVALID ∨ f u.next = 0 then u.next else INVALID }

/-- Atomic steps.  `change p v`: a process changes the usage count of page `p` to
`v` by its compare-and-exchange on the page state (`page_inc_usage_count_internal`
252-254, `page_change_usage_count` 284-290, `page_try_change_usage_count` 302-304
of src/utils/ucm.c, and the lock loops of src/btree/page_state.c:161-167, 301-307,
391-397) and enters `ucm_inc`.  `climb k`: the `k`-th running update performs its
compare-and-exchange on its word. -/
inductive Step where
  | change (p v : Nat)
  | climb (k : Nat)
deriving Repr

/-- One atomic step.  `change`: `ucm_inc`, src/utils/ucm.c:214-232, starts at the
leaf word of the page unless the level stays the same; which new level a caller
picks is left open (every caller is an instance).  `climb`: one turn of the loop
in `ucm_inc_recursive`, src/utils/ucm.c:186-212; while `ready` does not hold the
process spins, which leaves the state unchanged. -/
def step (g : Geom) (s : State) : Step → State
  | .change p v =>
    if p < g.size ∧ (v < 8 ∨ v = INVALID) then
      if s.page p = v then s
      else
        { s with
          page := fun q => if q = p then v else s.page q,
          pend := { node := g.nonLeaf + p / 15, prev := s.page p, next := v } :: s.pend }
    else s
  | .climb k =>
    match s.pend[k]? with
    | none => s
    | some u =>
      if ready (s.cnt u.node) u.prev u.next then
        { s with
          cnt := fun i => if i = u.node then moved (s.cnt i) u.prev u.next else s.cnt i,
          pend := if 15 ≤ u.node then s.pend.set k (parentUpd (s.cnt u.node) u)
                  else s.pend.eraseIdx k }
      else s

/-- Any interleaving of steps from the initial state.
Auxiliary of the model, without counterpart in /repo. -/
def run (g : Geom) (l : List Step) : State := l.foldl (step g) (initState g)

/-! ## The search -/

/-- Local variables of `ucm_occupy_free_page` (src/utils/ucm.c:544-548) and
`ucm_next_blkno` (442-446). -/
structure Cursor where
  location : Nat
  factor : Nat
  base : Nat
  iters : Nat
deriving DecidableEq, Repr

/-- What one turn of the search loop (src/utils/ucm.c:469-538, 556-607) does. -/
inductive Turn where
  /-- a page with a wanted level, ucm.c:490 and 574 -/
  | found (p : Nat)
  | again (c : Cursor)
  /-- two rounds over the root words without success, ucm.c:513-526
  (only `ucm_next_blkno`; it moves the epoch on and starts again) -/
  | giveUp
deriving DecidableEq, Repr

/-- Step over, src/utils/ucm.c:533-536 = 602-605. -/
def stepOver (c : Cursor) : Cursor :=
  let j := c.location / c.factor % 15
  { c with
    location := c.location / c.factor * c.factor + (j + 1) % 15 * c.factor - j * c.factor,
    iters := c.iters + 1 }

/-- One turn of the loops of `ucm_occupy_free_page` (src/utils/ucm.c:556-607,
`stop = false`) and `ucm_next_blkno` (469-538, `stop = true`): `mask l` says
whether the counter of level `l` is in the mask, `want l` whether a page with
usage count `l` is taken.  The search runs on one state of the map: no other
process changes it meanwhile, so the compare-and-exchange of line 571 succeeds. -/
def turn (g : Geom) (s : State) (stop : Bool) (mask want : Nat → Bool) (c : Cursor) :
    Turn :=
  let i := c.base + c.location / c.factor % 15
  if c.factor = 1 ∧ c.location < g.size ∧ want (s.page c.location) = true then
    .found c.location
  else if i < g.total ∧ (List.range 8).any (fun l => mask l && decide (s.cnt i l ≠ 0)) then
    .again { c with base := (i + 1) * 15, factor := c.factor / 15, iters := 0 }
  else if c.iters > 30 then
    if c.base = 0 then
      if stop then .giveUp else .again (stepOver c)
    else
      .again (stepOver { location := c.location, factor := c.factor * 15,
                         base := (i / 15 - 1) / 15 * 15, iters := 0 })
  else .again (stepOver c)

/-- At most `fuel` turns of that loop, src/utils/ucm.c:469-538, 556-607. -/
def search (g : Geom) (s : State) (stop : Bool) (mask want : Nat → Bool) :
    Nat → Cursor → Turn
  | 0, c => .again c
  | fuel + 1, c =>
    match turn g s stop mask want c with
    | .again c' => search g s stop mask want fuel c'
    | r => r

/-- Start of `ucm_occupy_free_page`, src/utils/ucm.c:551-555, and of
`ucm_next_blkno` with `init_blkno = loc`, 465-468. -/
def start (g : Geom) (loc : Nat) : Cursor :=
  { location := loc, factor := g.rootFactor, base := 0, iters := 0 }

/-- The mask and the page test of `ucm_occupy_free_page`, src/utils/ucm.c:551, 570. -/
def occupySearch (g : Geom) (s : State) (fuel : Nat) : Turn :=
  search g s false (fun l => decide (l = FREE)) (fun l => decide (l = FREE)) fuel (start g 0)

/-- The mask of `ucm_next_blkno`, src/utils/ucm.c:454-463: bit `k` of `mask_src`
stands for the level `(k + epoch) % UCM_USAGE_LEVELS`. -/
def nextMask (maskSrc epoch l : Nat) : Bool :=
  (List.range 7).any (fun k => maskSrc.testBit k && decide ((k + epoch) % 7 = l))

/-- The page test of `ucm_next_blkno`, src/utils/ucm.c:482-486; note that it
reduces modulo `UCM_LEVELS`, not `UCM_USAGE_LEVELS`. -/
def nextWant (maskSrc epoch l : Nat) : Bool :=
  decide (l < 8) && maskSrc.testBit ((8 + l - epoch) % 8)

/-- `ucm_next_blkno`, src/utils/ucm.c:438-539, up to the point where it returns a
block or moves the epoch on.  The increment of the usage count of the block found
(488) is a separate `change` step. -/
def nextSearch (g : Geom) (s : State) (epoch maskSrc loc fuel : Nat) : Turn :=
  search g s true (nextMask maskSrc epoch) (nextWant maskSrc epoch) fuel (start g loc)

/-- The next epoch, src/utils/ucm.c:517-520. -/
def nextEpoch (e : Nat) : Nat := if e = 6 then 0 else e + 1

/-- The retry loop of `ucm_next_blkno`, src/utils/ucm.c:450-452 and 513-526:
`epoch` is the local variable, `shared` the value of `map->epoch`.  When the
compare-and-exchange of 522-524 succeeds it leaves the local variable as it is,
so the next round looks for the same level again; when it fails it loads the
shared value.  The result is the page found and the value of `map->epoch` then;
`none` if `rounds` rounds of `fuel` turns do not suffice. -/
def nextBlkno (g : Geom) (s : State) (maskSrc loc fuel : Nat) :
    Nat → Nat → Nat → Option (Nat × Nat)
  | 0, _, _ => none
  | rounds + 1, epoch, shared =>
    match nextSearch g s epoch maskSrc loc fuel with
    | .found p => some (p, shared)
    | .again _ => none
    | .giveUp =>
      if shared = epoch then nextBlkno g s maskSrc loc fuel rounds epoch (nextEpoch epoch)
      else nextBlkno g s maskSrc loc fuel rounds shared shared

end Verif.Ucm
