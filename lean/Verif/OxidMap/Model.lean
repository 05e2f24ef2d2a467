/-!
# The map from transaction ids to their statuses

Model of the functions of `src/transam/oxid.c` that store and find the status (commit
sequence number) of transactions: a circular buffer in shared memory for the recent ones,
buffered files for the older ones.  Any number of sessions; a step is one access to shared
memory, a part under the spinlock, or one call of the buffered files.

A session stands for a process at one level of autonomous transactions: it has at most one
transaction.  Work that any process may do in passing (`write_xidsmap`,
`advance_global_xmin`, the checkpointer's flush) is done by sessions of its own.

Simplified: memory is sequentially consistent; `commitPtr`, the flag for rewind and
recovery processes are left out; the buffered files are an array of statuses with a
write-back cache (see `evict`).
-/

namespace Verif.OxidMap

/-- Statuses (`src/transam/oxid.c:43-56`, `COMMITSEQNO_*`): `special p c` has the special
bit, the number of the process, and the committing bit. -/
inductive Csn where
  | frozen
  | aborted
  | special (p : Nat) (committing : Bool)
  | committed (n : Nat)
  deriving DecidableEq

/-- Committed or aborted.  src/transam/oxid.c:1849-1855. -/
def Csn.finished : Csn → Bool
  | .aborted => true
  | .committed _ => true
  | _ => false

/-- Sizes: `xid_circular_buffer_size` (`src/orioledb.c:1270-1273`), `XID_SLOTS_PER_PAGE`
(`src/transam/oxid.c:187`), and the first id to be given out after start. -/
structure Cfg where
  size : Nat
  page : Nat
  start : Nat
  hsize : 2 ≤ size
  hpage : 0 < page

/-- Calls: `set_oxid_csn` and `map_oxid`.  `get_current_oxid` for a new id `x` counts as a
call setting the first status of `x`.  src/transam/oxid.c:772-814, 876-933, 1619-1740. -/
inductive Call where
  | set (x : Nat) (v : Csn)
  | get (x : Nat)
  deriving DecidableEq

/-- What happened: calls, returns with a status, `globalXmin` raised.  `lin x v` is a remark
of the model, not of the code: from now on `v` is the status of `x`.
src/transam/oxid.c:773-933, 1444-1566. -/
inductive Ev where
  | call (p : Nat) (c : Call)
  | ret (p : Nat) (c : Call) (v : Csn)
  | global (g : Nat)
  | lin (x : Nat) (v : Csn)
  deriving DecidableEq

/-- Positions in `map_oxid` (`src/transam/oxid.c:876-933`): before the read of the slot
(896), of `writeInProgressXmin` (902), of `writtenXmin` (908), waiting for the lock (910),
before the read of the file (915), of `globalXmin` (920). -/
inductive Q where
  | ring
  | wip (v : Csn)
  | written
  | lock
  | file
  | glob (v : Csn)

/-- Positions of a session.

* `beginWait x`: in the loop of `get_current_oxid` (`src/transam/oxid.c:1644-1655`).
* `setOld` to `setFile`: `set_oxid_csn` (`773-814`), before the lines 778, 780, 783, 786, 789,
  804, 806, 811.  The end of `get_current_oxid` (`1694-1720`) is the same from 786 on.  `done`
  is a remark of the model: the exchange of line 783 took place.
* `runRead`, `runCas`, `map true`: `advance_run_xmin` (`1841-1861`).
* `map false`: `map_oxid` called by itself.
* `scanStart` to `drainUnlock`: `write_xidsmap` (`955-1054`) called with the lock.
* `freeze`: `advance_global_xmin` (`1499-1525`).
* `flPreload` to `flDisk`: `flush_dirty_xidsmap_range` (`1116-1201`), one page. -/
inductive Pc where
  | idle
  | beginWait (x : Nat)
  | setOld (x : Nat) (v : Csn)
  | setWip (x : Nat) (v old : Csn)
  | setCas (x : Nat) (v old : Csn)
  | setDirty (x : Nat) (v : Csn)
  | setRecheck (x : Nat) (v : Csn)
  | setWritten (x : Nat) (v : Csn) (done : Bool)
  | setLock (x : Nat) (v : Csn) (done : Bool)
  | setFile (x : Nat) (v : Csn) (done : Bool)
  | runRead (x : Nat)
  | runCas (r : Nat)
  | map (run : Bool) (x : Nat) (q : Q)
  | scanStart (target : Nat)
  | scan (cur xmax : Nat)
  | drain (ws xmax cur : Nat) (buf : Nat → Csn)
  | drainWrite (ws we xmax : Nat) (buf : Nat → Csn) (dirty : Bool)
  | drainEnd (xmax : Nat)
  | drainUnlock
  | freeze (cur g : Nat)
  | flPreload (pg : Nat)
  | flCopy (pg : Nat) (straddles : Bool) (buf : Nat → Csn)
  | flRefresh (pg : Nat) (straddles : Bool) (buf : Nat → Csn)
  | flDisk (pg : Nat) (straddles : Bool) (buf : Nat → Csn)

/-- The shared state (`XidMeta`, `include/transam/oxid.h:26-52`; `xidBuffer`,
`xidBufferDirty`, `src/transam/oxid.c:160-180`) and the sessions.

* `ring`: statuses by slot; `bits`: dirty bits by page of the ring.
* `file`: what a read of the buffered files gives; `fdirty`: the buffer of a page is
  dirty; `disk`: what is in the files.
* `lock`, `spin`: holders of `xidMapWriteLock` and `xminMutex`.
* `own p`: the id of the session's transaction (`curOxid`). -/
structure St where
  next : Nat
  run : Nat
  glob : Nat
  wip : Nat
  wr : Nat
  ring : Nat → Csn
  bits : Nat → Bool
  file : Nat → Csn
  fdirty : Nat → Bool
  disk : Nat → Csn
  lock : Option Nat
  spin : Option Nat
  own : Nat → Option Nat
  pc : Nat → Pc
  tr : List Ev

/-- A function changed at one place.  Auxiliary of the model, without counterpart in /repo. -/
def upd {α : Type} (f : Nat → α) (i : Nat) (a : α) : Nat → α := fun j => if j = i then a else f j

/-- After start: nothing is in the ring, all counters are at the first id
(`checkpoint.c`, `o_recovery_*` set them from the control file; here they are equal).
src/transam/oxid.c:410-455 sets up the shared memory. -/
def init (c : Cfg) (file : Nat → Csn) : St :=
  { next := c.start, run := c.start, glob := c.start, wip := c.start, wr := c.start
    ring := fun _ => .frozen, bits := fun _ => false
    file := file, fdirty := fun _ => false, disk := file
    lock := none, spin := none, own := fun _ => none, pc := fun _ => .idle, tr := [] }

/-- `XID_BUFFER_PAGE_INDEX` (`src/transam/oxid.c:200-201`). -/
def pageIndex (c : Cfg) (x : Nat) : Nat := (x % c.size) / c.page

/-- The ids of a page of the file replaced.  src/transam/oxid.c:1079-1206 writes pages. -/
def setPage (c : Cfg) (f : Nat → Csn) (pg : Nat) (b : Nat → Csn) : Nat → Csn :=
  fun x => if x / c.page = pg then b x else f x

/-- The ids of a range replaced.  src/transam/oxid.c:956-1076 writes ranges. -/
def setRange (f : Nat → Csn) (a b : Nat) (g : Nat → Csn) : Nat → Csn :=
  fun x => if a ≤ x ∧ x < b then g x else f x

/-- Move a session.  Auxiliary of the model, without counterpart in /repo. -/
def St.at (s : St) (p : Nat) (pc : Pc) : St := { s with pc := upd s.pc p pc }

/-- A remark or an event.  Auxiliary of the model, without counterpart in /repo. -/
def St.ev (s : St) (e : Ev) : St := { s with tr := e :: s.tr }

/-- The end of `set_oxid_csn`.  A finished transaction goes on to `advance_run_xmin`
(`current_oxid_commit`, `current_oxid_abort`, `src/transam/oxid.c:1893-1954`); otherwise the
session goes on with its transaction.  For a new transaction it is the end of
`get_current_oxid`. -/
def setDone (s : St) (p x : Nat) (v : Csn) : St :=
  let s := s.ev (.ret p (.set x v) v)
  if v.finished then s.at p (.runRead x) else s.at p .idle

/-- `map_oxid` returns `v` (`src/transam/oxid.c:876-933`).  In `advance_run_xmin`
(`1856-1858`): go on if the transaction is finished, else leave the loop, which is the end
of the transaction. -/
def mapDone (s : St) (p : Nat) (run : Bool) (x : Nat) (v : Csn) : St :=
  if run then
    if v.finished then s.at p (.runCas x)
    else
      { s with
        own := upd s.own p none
        pc := upd s.pc p .idle }
  else (s.ev (.ret p (.get x) v)).at p .idle

/-- A step of `map_oxid` (`src/transam/oxid.c:894-932`). -/
def goMap (c : Cfg) (s : St) (p : Nat) (run : Bool) (x : Nat) : Q → St
  | .ring => s.at p (.map run x (.wip (s.ring (x % c.size))))
  | .wip v => if s.wip ≤ x then mapDone s p run x v else s.at p (.map run x .written)
  | .written => if s.wr ≤ x then s.at p (.map run x .lock) else s.at p (.map run x .file)
  | .lock => if s.lock = none then s.at p (.map run x .file) else s
  | .file => s.at p (.map run x (.glob (s.file x)))
  | .glob v => if x < s.glob then mapDone s p run x .frozen else mapDone s p run x v

/-- A step of `set_oxid_csn` at its start (`src/transam/oxid.c:778-783`), and the rest of it
(`786-813`). -/
def goSet (c : Cfg) (s : St) (p : Nat) : Pc → St
  | .setOld x v => s.at p (.setWip x v (s.ring (x % c.size)))
  | .setWip x v old =>
    if s.wip ≤ x then s.at p (.setCas x v old) else s.at p (.setWritten x v false)
  | .setCas x v old =>
    if s.ring (x % c.size) = old then
      (({ s with ring := upd s.ring (x % c.size) v } : St).ev (.lin x v)).at p (.setDirty x v)
    else s.at p (.setWritten x v false)
  | .setDirty x v =>
    ({ s with bits := upd s.bits (pageIndex c x) true } : St).at p (.setRecheck x v)
  | .setRecheck x v => if s.wip ≤ x then setDone s p x v else s.at p (.setWritten x v true)
  | .setWritten x v d =>
    if s.wr ≤ x then s.at p (.setLock x v d) else s.at p (.setFile x v d)
  | .setLock x v d => if s.lock = none then s.at p (.setFile x v d) else s
  | .setFile x v d =>
    let s1 : St :=
      { s with
        file := upd s.file x v
        fdirty := upd s.fdirty (x / c.page) true }
    setDone (if d then s1 else s1.ev (.lin x v)) p x v
  | _ => s

/-- A step of `write_xidsmap` (`src/transam/oxid.c:955-1054`), called with the lock held. -/
def goDrain (c : Cfg) (s : St) (p : Nat) : Pc → St
  | .scanStart target =>
    if s.spin = none then
      let xmax := min (min (max (s.wr + c.size / 8) target) (s.wr + c.size)) s.next
      ({ s with spin := some p } : St).at p (.scan s.wr xmax)
    else s
  | .scan cur xmax =>
    if cur < xmax ∧ s.ring (cur % c.size) ≠ .frozen then s.at p (.scan (cur + 1) xmax)
    else if cur = s.wr then
      ({ s with
         spin := none
         lock := none } : St).at p .idle
    else
      ({ s with
         spin := none
         wip := cur } : St).at p (.drain s.wr cur s.wr (fun _ => .frozen))
  | .drain ws xmax cur buf =>
    let we := min ((ws / c.page + 1) * c.page) xmax
    if cur < we then
      ({ s with ring := upd s.ring (cur % c.size) .frozen } : St).at p
        (.drain ws xmax (cur + 1) (upd buf cur (s.ring (cur % c.size))))
    else
      let i := pageIndex c ws
      let full := ws % c.page = 0 ∧ we = ws + c.page
      ({ s with bits := if full then upd s.bits i false else s.bits } : St).at p
        (.drainWrite ws we xmax buf (s.bits i))
  | .drainWrite ws we xmax buf dirty =>
    let s1 : St :=
      { s with
        file := setRange s.file ws we buf
        fdirty := upd s.fdirty (ws / c.page) dirty }
    if we < xmax then s1.at p (.drain we xmax we (fun _ => .frozen))
    else s1.at p (.drainEnd xmax)
  | .drainEnd xmax =>
    if s.spin = none then ({ s with wr := xmax } : St).at p .drainUnlock else s
  | .drainUnlock => ({ s with lock := none } : St).at p .idle
  | _ => s

/-- `clear_xid_dirty_range` (`src/transam/oxid.c:253-270`). -/
def clearBits (c : Cfg) (bits : Nat → Bool) (a b : Nat) : Nat → Bool :=
  fun i => if (List.range (b / c.page)).any
      (fun pg => decide (a ≤ pg * c.page) && pageIndex c (pg * c.page) == i)
    then false else bits i

/-- A step of the freezing part of `advance_global_xmin` (`src/transam/oxid.c:1511-1524`). -/
def goFreeze (c : Cfg) (s : St) (p cur g : Nat) : St :=
  if cur < g then
    ({ s with ring := upd s.ring (cur % c.size) .frozen } : St).at p (.freeze (cur + 1) g)
  else
    ({ s with
       bits := clearBits c s.bits s.wr g
       wr := g
       lock := none
       spin := none } : St).at p .idle

/-- A step of `flush_dirty_xidsmap_range` for one page (`src/transam/oxid.c:1154-1201`).  The
slots are copied in one step.  `o_buffers_write_page_direct` (`o_buffers.c:444-474`) is two
steps: the buffer, if there is one, is replaced and made clean, then the page is written. -/
def goFlush (c : Cfg) (s : St) (p : Nat) : Pc → St
  | .flPreload pg =>
    if pg * c.page < s.wr then s.at p (.flCopy pg true s.file)
    else s.at p (.flCopy pg false (fun _ => .frozen))
  | .flCopy pg st buf =>
    s.at p (.flRefresh pg st (fun x => if x < s.wr then buf x else s.ring (x % c.size)))
  | .flRefresh pg st buf =>
    ({ s with
       file := setPage c s.file pg buf
       fdirty := upd s.fdirty pg false } : St).at p (.flDisk pg st buf)
  | .flDisk pg _ buf =>
    ({ s with
       disk := setPage c s.disk pg buf
       lock := none } : St).at p .idle
  | _ => s

/-- The next step of a session.
src/transam/oxid.c:773-933, 956-1206, 1444-1566, 1620-1740, 1842-1862. -/
def go (c : Cfg) (s : St) (p : Nat) : St :=
  match s.pc p with
  | .idle => s
  | .beginWait x =>
    -- `src/transam/oxid.c:1644`, `1692-1693`
    if x + 1 < s.wr + c.size then
      (({ s with ring := upd s.ring (x % c.size) (.special p false) } : St).ev
        (.lin x (.special p false))).at p (.setDirty x (.special p false))
    else s
  | .runRead x =>
    -- `src/transam/oxid.c:1849-1850`
    if s.run = x then s.at p (.runCas x)
    else
      { s with
        own := upd s.own p none
        pc := upd s.pc p .idle }
  | .runCas r =>
    -- `src/transam/oxid.c:1852-1855`
    if s.run = r then ({ s with run := r + 1 } : St).at p (.map true (r + 1) .ring)
    else
      { s with
        own := upd s.own p none
        pc := upd s.pc p .idle }
  | .map run x q => goMap c s p run x q
  | .freeze cur g => goFreeze c s p cur g
  | .flPreload pg => goFlush c s p (.flPreload pg)
  | .flCopy pg st buf => goFlush c s p (.flCopy pg st buf)
  | .flRefresh pg st buf => goFlush c s p (.flRefresh pg st buf)
  | .flDisk pg st buf => goFlush c s p (.flDisk pg st buf)
  | .scanStart t => goDrain c s p (.scanStart t)
  | .scan cur xmax => goDrain c s p (.scan cur xmax)
  | .drain ws xmax cur buf => goDrain c s p (.drain ws xmax cur buf)
  | .drainWrite ws we xmax buf d => goDrain c s p (.drainWrite ws we xmax buf d)
  | .drainEnd xmax => goDrain c s p (.drainEnd xmax)
  | .drainUnlock => goDrain c s p .drainUnlock
  | .setOld x v => goSet c s p (.setOld x v)
  | .setWip x v old => goSet c s p (.setWip x v old)
  | .setCas x v old => goSet c s p (.setCas x v old)
  | .setDirty x v => goSet c s p (.setDirty x v)
  | .setRecheck x v => goSet c s p (.setRecheck x v)
  | .setWritten x v d => goSet c s p (.setWritten x v d)
  | .setLock x v d => goSet c s p (.setLock x v d)
  | .setFile x v d => goSet c s p (.setFile x v d)

/-- What can happen.

* `begin p`: a session without transaction asks for an id (`get_current_oxid`,
  `src/transam/oxid.c:1627`).
* `set p v`: a session sets the status of its transaction (`current_oxid_precommit`,
  `current_oxid_commit`, `current_oxid_abort`, `current_oxid_clear_committing`,
  `1806-1818`, `1893-2006`).
* `get p x`: a session looks up an id it has come across.
* `drain p target`: the lock is taken and `write_xidsmap` called (`1649-1652`).
* `adv p g tryLock`: `advance_global_xmin` (`1443-1557`) with a minimum of `g` over `runXmin`
  and the sessions' minima; `tryLock`: the conditional lock (`1500`) is not refused for
  nothing.
* `flush p pg`: the checkpointer turns to page `pg` (`1116-1145`).  The code keeps the lock
  for up to 128 pages.
* `evict pg`: the buffer of a page is written back if dirty, and loaded again
  (`get_buffer`, `src/utils/o_buffers.c`).
* `garbage x v`, `wipe pg`: files below `globalXmin` are cleaned up (`1544-1556`).
* `go p`: the next step of a session. -/
inductive Act where
  | begin (p : Nat)
  | set (p : Nat) (v : Csn)
  | get (p x : Nat)
  | drain (p target : Nat)
  | adv (p g : Nat) (tryLock : Bool)
  | flush (p pg : Nat)
  | evict (pg : Nat)
  | garbage (x : Nat) (v : Csn)
  | wipe (pg : Nat)
  | go (p : Nat)
  deriving DecidableEq

/-- A session is not in a call.  Auxiliary of the model, without counterpart in /repo. -/
def Pc.isIdle : Pc → Bool
  | .idle => true
  | _ => false

/-- A status a session may give to its own transaction.  src/transam/oxid.c:1807-1818, 1894-1954. -/
def Csn.okFor (p : Nat) : Csn → Bool
  | .frozen => false
  | .special q _ => q == p
  | _ => true

/-- An id whose transaction has started: it is in some row, undo record or process data.
Auxiliary of the model, without counterpart in /repo. -/
def known (s : St) (x : Nat) : Bool := s.tr.any (fun e => match e with | .lin y _ => y == x | _ => false)

/-- One step.  What is not possible changes nothing.
The lines are given at `Act` and in the functions called. -/
def step (c : Cfg) (s : St) : Act → St
  | .begin p =>
    if (s.pc p).isIdle ∧ s.own p = none then
      (({ s with
          next := s.next + 1
          own := upd s.own p (some s.next) } : St).ev
        (.call p (.set s.next (.special p false)))).at p (.beginWait s.next)
    else s
  | .set p v =>
    match s.own p with
    | none => s
    | some x =>
      if (s.pc p).isIdle ∧ v.okFor p then (s.ev (.call p (.set x v))).at p (.setOld x v)
      else s
  | .get p x =>
    if (s.pc p).isIdle ∧ known s x then (s.ev (.call p (.get x))).at p (.map false x .ring)
    else s
  | .drain p target =>
    if (s.pc p).isIdle ∧ s.lock = none then
      ({ s with lock := some p } : St).at p (.scanStart target)
    else s
  | .adv p g tryLock =>
    if (s.pc p).isIdle ∧ s.spin = none ∧ g ≤ s.run then
      if s.wr = s.wip ∧ s.wr < g ∧ s.lock = none ∧ tryLock then
        (({ s with
            glob := max s.glob g
            wip := g
            lock := some p
            spin := some p } : St).ev (.global g)).at p (.freeze s.wr g)
      else ({ s with glob := max s.glob g } : St).ev (.global g)
    else s
  | .flush p pg =>
    if (s.pc p).isIdle ∧ s.lock = none then
      if (pg + 1) * c.page ≤ s.wr ∨ s.bits (pageIndex c (pg * c.page)) = false then s
      else
        ({ s with
           lock := some p
           bits := upd s.bits (pageIndex c (pg * c.page)) false } : St).at p (.flPreload pg)
    else s
  | .evict pg =>
    if s.fdirty pg then
      { s with
        disk := setPage c s.disk pg s.file
        fdirty := upd s.fdirty pg false }
    else { s with file := setPage c s.file pg s.disk }
  | .garbage x v => if x < s.glob then { s with file := upd s.file x v } else s
  | .wipe pg => if (pg + 1) * c.page ≤ s.glob then { s with fdirty := upd s.fdirty pg false } else s
  | .go p => go c s p

/-- A run.  Auxiliary of the model, without counterpart in /repo. -/
def runActs (c : Cfg) : St → List Act → St
  | s, [] => s
  | s, a :: as => runActs c (step c s a) as

end Verif.OxidMap
