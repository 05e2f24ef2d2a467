/-!
# Buffered files for undo and transaction statuses

Model of `src/utils/o_buffers.c`.  Any number of processes call `o_buffers_read` and
`o_buffers_write`; each moves by the steps between which the code can be interrupted, i.e.
those where a lock is taken.  Blocks are functions from offsets to bytes; only offsets below
the block size matter.
-/

namespace Verif.OBuffers

/-- Tag of the file and block number: `tag`, `blockNum` (`src/utils/o_buffers.c:37-40`).
`blockNum = -1` is `none` where a key is optional. -/
abbrev Key := Nat × Nat

/-- The fields set by the user and derived sizes (`include/utils/o_buffers.h:24-41`):
`ORIOLEDB_BLCKSZ`, `groupsCount` and `singleFileSize / ORIOLEDB_BLCKSZ`.  All are positive
(`include/orioledb.h:122`, `src/utils/o_buffers.c:55`, `73`). -/
structure Cfg where
  blk : Nat
  groups : Nat
  perFile : Nat
  hb : 0 < blk
  hg : 0 < groups
  hf : 0 < perFile

/-- `OBuffer` (`src/utils/o_buffers.c:34-44`).  `lock` is the process that holds
`bufferCtlLock` exclusively while it loads the buffer; the other uses of the lock are within
one step. -/
structure Buf where
  id : Option Key
  shadow : Option Key
  usage : Nat
  dirty : Bool
  data : Nat → Nat
  lock : Option Nat

/-- Arguments of `o_buffers_rw` (`src/utils/o_buffers.c:344-347`). -/
structure Op where
  write : Bool
  tag : Nat
  off : Nat
  size : Nat
  missingOk : Bool
  markClean : Bool
  buf : Nat → Nat

/-- Where a process is: not in a call; at the start of `get_buffer`
(`src/utils/o_buffers.c:242`) for a block; between the two scans (256-259); waiting for the
lock of the buffer found (249, 270), with the group locked; after taking the victim (309)
with what was in it; before `read_buffer` (314).  Besides: the block, the bytes transferred
so far (`ptr - buf`) and the caller's buffer. -/
inductive Pc where
  | scan
  | miss
  | waitHit (j : Nat)
  | evict (j : Nat) (prevDirty : Bool) (prev : Option Key)
  | load (j : Nat)
  deriving DecidableEq

/-- A call in progress: local variables of `o_buffers_rw` (`src/utils/o_buffers.c:349-352`)
and of `get_buffer` (231-239). -/
structure Call where
  op : Op
  cur : Nat
  ptr : Nat
  acc : Nat → Nat
  pc : Pc

/-- Observable events: call, return (with the result and the caller's buffer), and the
bytes copied from and to the cache with their addresses in the file.  The copies are not
observable by themselves; they are recorded to tell when a call took effect.
The calls are `o_buffers_read` and `o_buffers_write`, the copies src/utils/o_buffers.c:390-397. -/
inductive Ev where
  | call (p : Nat) (op : Op)
  | ret (p : Nat) (op : Op) (ok : Bool) (acc : Nat → Nat)
  | rd (tag addr : Nat) (bytes : List Nat)
  | wr (tag addr : Nat) (bytes : List Nat)

/-- Shared memory, files (`fex`: the file exists; bytes never written read as zeros,
`src/utils/o_buffers.c:215-216`), the processes and the events, newest first. -/
structure St where
  bufs : Nat → Nat → Buf
  disk : Key → Nat → Nat
  fex : Nat → Nat → Bool
  procs : List (Option Call)
  trace : List Ev

/-- Change one buffer.  Not in the code.  Auxiliary of the model, without counterpart in /repo. -/
def setBuf (b : Nat → Nat → Buf) (g j : Nat) (v : Buf) : Nat → Nat → Buf :=
  fun g' j' => if g' = g ∧ j' = j then v else b g' j'

/-- Change one block of the disk.  Not in the code.
Auxiliary of the model, without counterpart in /repo. -/
def setDisk (d : Key → Nat → Nat) (k : Key) (v : Nat → Nat) : Key → Nat → Nat :=
  fun k' => if k' = k then v else d k'

/-- `open_file` with `O_CREAT` (`src/utils/o_buffers.c:113-144`).  Simplified: the
descriptor a process keeps open is not modelled. -/
def setFex (f : Nat → Nat → Bool) (tag n : Nat) : Nat → Nat → Bool :=
  fun t m => if t = tag ∧ m = n then true else f t m

/-- `O_BUFFERS_PER_GROUP` buffers (`src/utils/o_buffers.c:26`). -/
def slots : List Nat := [0, 1, 2, 3]

/-- First buffer that holds the block (`src/utils/o_buffers.c:243-247`, `262-268`). -/
def hit (b : Nat → Nat → Buf) (g : Nat) (k : Key) : Option Nat :=
  slots.find? fun j => (b g j).id == some k

/-- Choice of the victim (`src/utils/o_buffers.c:262-295`): the first buffer with the least
usage count. -/
def victim (b : Nat → Nat → Buf) (g : Nat) : Nat :=
  (slots.foldl (fun (r : Nat × Nat) j =>
    if j = 0 ∨ (b g j).usage < r.2 then (j, (b g j).usage) else r) (0, 0)).1

/-- Halving of the usage counts (`src/utils/o_buffers.c:293`) of the first `n` buffers. -/
def halve (b : Nat → Nat → Buf) (g n : Nat) : Nat → Nat → Buf :=
  fun g' j => if g' = g ∧ j < n then { b g' j with usage := (b g' j).usage / 2 } else b g' j

/-- Number of the first and of the last block (`src/utils/o_buffers.c:349-350`). -/
def firstBlk (c : Cfg) (o : Op) : Nat := o.off / c.blk

/-- See `firstBlk`.  src/utils/o_buffers.c:350. -/
def lastBlk (c : Cfg) (o : Op) : Nat := (o.off + o.size - 1) / c.blk

/-- `copySize` (`src/utils/o_buffers.c:369-388`). -/
def copySize (c : Cfg) (o : Op) (b : Nat) : Nat :=
  if firstBlk c o = lastBlk c o then o.size
  else if b = firstBlk c o then c.blk - o.off % c.blk
  else if b = lastBlk c o then (o.off + o.size - 1) % c.blk + 1
  else c.blk

/-- `copyOffset` (`src/utils/o_buffers.c:369-388`). -/
def copyOffset (c : Cfg) (o : Op) (b : Nat) : Nat :=
  if firstBlk c o = lastBlk c o then o.off % c.blk
  else if b = firstBlk c o then o.off % c.blk
  else 0

/-- `memcpy` (`src/utils/o_buffers.c:392`, `397`): `n` bytes from `src + so` to
`dst + d0`. -/
def cpy (dst : Nat → Nat) (d0 : Nat) (src : Nat → Nat) (so n : Nat) : Nat → Nat :=
  fun i => if d0 ≤ i ∧ i < d0 + n then src (so + (i - d0)) else dst i

/-- The `n` bytes at `f + o`.  Auxiliary of the model, without counterpart in /repo. -/
def slice (f : Nat → Nat) (o n : Nat) : List Nat := (List.range n).map fun i => f (o + i)

/-- The key of the block a call is at.  src/utils/o_buffers.c:354-360. -/
def Call.key (cl : Call) : Key := (cl.op.tag, cl.cur)

/-- End of one round of the loop of `o_buffers_rw` (`src/utils/o_buffers.c:399-402`): the
next block, or the return. -/
def next (c : Cfg) (s : St) (p : Nat) (cl : Call) (acc : Nat → Nat) (n : Nat) (ev : Ev) : St :=
  if cl.cur < lastBlk c cl.op then
    { s with
      procs := s.procs.set p (some { cl with cur := cl.cur + 1, ptr := cl.ptr + n, acc := acc, pc := .scan }),
      trace := ev :: s.trace }
  else
    { s with
      procs := s.procs.set p none,
      trace := .ret p cl.op true acc :: ev :: s.trace }

/-- The copy under the buffer's lock and the release of the lock
(`src/utils/o_buffers.c:390-400`). -/
def copy (c : Cfg) (s : St) (p : Nat) (cl : Call) (j : Nat) : St :=
  let g := cl.cur % c.groups
  let b := s.bufs g j
  let n := copySize c cl.op cl.cur
  let o := copyOffset c cl.op cl.cur
  if cl.op.write then
    let b' := { b with data := cpy b.data o cl.op.buf cl.ptr n, dirty := !cl.op.markClean, lock := none }
    next c { s with bufs := setBuf s.bufs g j b' } p cl cl.acc n
      (.wr cl.op.tag (cl.cur * c.blk + o) (slice cl.op.buf cl.ptr n))
  else
    next c { s with bufs := setBuf s.bufs g j { b with lock := none } } p cl
      (cpy cl.acc cl.ptr b.data o n) n
      (.rd cl.op.tag (cl.cur * c.blk + o) (slice b.data o n))

/-- A process in a call waits for a buffer of group `g`, holding the group's lock
(`src/utils/o_buffers.c:249`, `270`). -/
def waitsIn (c : Cfg) (g : Nat) : Option Call → Bool
  | some ⟨_, cur, _, _, .waitHit _⟩ => cur % c.groups == g
  | _ => false

/-- Move a call on.  Auxiliary of the model, without counterpart in /repo. -/
def setPc (s : St) (p : Nat) (cl : Call) (pc : Pc) : St :=
  { s with procs := s.procs.set p (some { cl with pc := pc }) }

/-- First scan of `get_buffer` (`src/utils/o_buffers.c:242-256`). -/
def doScan (c : Cfg) (s : St) (p : Nat) (cl : Call) : St :=
  match hit s.bufs (cl.cur % c.groups) cl.key with
  | some j => setPc s p cl (.waitHit j)
  | none => setPc s p cl .miss

/-- Second scan and eviction up to the release of the group's lock
(`src/utils/o_buffers.c:259-309`), as one step that is possible when the group's lock, the
locks waited for at 284 and the victim's lock (296) are free: nothing but the buffers'
locks changes while the group is locked exclusively.  Simplified: a process that finds the
block now and waits for its buffer (270) keeps the group's lock shared instead of
exclusively, which allows more interleavings. -/
def doMiss (c : Cfg) (s : St) (p : Nat) (cl : Call) : St :=
  let g := cl.cur % c.groups
  if s.procs.any (waitsIn c g) then s
  else
    match hit s.bufs g cl.key with
    | some j =>
      if (slots.take j).any (fun i => (s.bufs g i).shadow == some cl.key && (s.bufs g i).lock.isSome) then s
      else setPc { s with bufs := halve s.bufs g j } p cl (.waitHit j)
    | none =>
      if slots.any (fun i => (s.bufs g i).shadow == some cl.key && (s.bufs g i).lock.isSome) then s
      else
        let v := victim s.bufs g
        if (s.bufs g v).lock.isSome then s
        else
          let b := s.bufs g v
          let b' : Buf := ⟨some cl.key, b.id, 1, false, b.data, some p⟩
          setPc { s with bufs := setBuf (halve s.bufs g 4) g v b' } p cl (.evict v b.dirty b.id)

/-- The buffer was found; its lock is taken when it is free (`src/utils/o_buffers.c:249-253`,
`270-274`).  As in the code, it is not checked that the buffer still holds the block. -/
def doWait (c : Cfg) (s : St) (p : Nat) (cl : Call) (j : Nat) : St :=
  let g := cl.cur % c.groups
  if (s.bufs g j).lock.isSome then s
  else
    copy c { s with bufs := setBuf s.bufs g j { s.bufs g j with usage := (s.bufs g j).usage + 1 } }
      p cl j

/-- Write back the block evicted (`src/utils/o_buffers.c:311-312`, `write_buffer_data`
161-175).  `none` stands for block number -1 with its tag, which would go to a file of its
own: nothing else reads it. -/
def doEvict (c : Cfg) (s : St) (p : Nat) (cl : Call) (j : Nat) (pd : Bool) (prev : Option Key) : St :=
  let s' := match pd, prev with
    | true, some k =>
      { s with
        disk := setDisk s.disk k (s.bufs (cl.cur % c.groups) j).data,
        fex := setFex s.fex k.1 (k.2 / c.perFile) }
    | _, _ => s
  setPc s' p cl (.load j)

/-- `read_buffer` and what follows (`src/utils/o_buffers.c:187-219`, `314-326`, `358-367`,
then the copy). Simplified: reading an existing file does not fail. -/
def doLoad (c : Cfg) (s : St) (p : Nat) (cl : Call) (j : Nat) : St :=
  let g := cl.cur % c.groups
  let b := s.bufs g j
  let f := cl.cur / c.perFile
  if cl.op.missingOk && !s.fex cl.op.tag f then
    { s with
      bufs := setBuf s.bufs g j { b with id := none, shadow := none, data := fun _ => 0, lock := none },
      procs := s.procs.set p none,
      trace := .ret p cl.op false (cpy cl.acc 0 (fun _ => 0) 0 cl.op.size) :: s.trace }
  else
    copy c
      { s with
        bufs := setBuf s.bufs g j { b with shadow := none, data := s.disk cl.key },
        fex := setFex s.fex cl.op.tag f } p cl j

/-- `o_buffers_flush` of one buffer (`src/utils/o_buffers.c:491-502`). -/
def flushBuf (c : Cfg) (s : St) (g j : Nat) : St :=
  let b := s.bufs g j
  if b.lock.isSome then s
  else match b.dirty, b.id with
    | true, some k =>
      { s with
        bufs := setBuf s.bufs g j { b with dirty := false },
        disk := setDisk s.disk k b.data,
        fex := setFex s.fex k.1 (k.2 / c.perFile) }
    | _, _ => s

/-- What can happen next: a process calls, a process in a call takes its next step, or a
checkpoint's `o_buffers_sync` reaches a buffer (`src/utils/o_buffers.c:540-557`, `485-491`). -/
inductive Act where
  | call (p : Nat) (op : Op)
  | run (p : Nat)
  | flush (g j : Nat)

/-- One step of the whole system (`src/utils/o_buffers.c:227-327`, `344-418`, `476-505`). -/
def step (c : Cfg) (s : St) : Act → St
  | .call p op =>
    match s.procs[p]? with
    | some none =>
      if op.size = 0 then s
      else
        { s with
          procs := s.procs.set p (some ⟨op, firstBlk c op, 0, op.buf, .scan⟩),
          trace := .call p op :: s.trace }
    | _ => s
  | .run p =>
    match s.procs[p]? with
    | some (some cl) =>
      match cl.pc with
      | .scan => doScan c s p cl
      | .miss => doMiss c s p cl
      | .waitHit j => doWait c s p cl j
      | .evict j pd prev => doEvict c s p cl j pd prev
      | .load j => doLoad c s p cl j
    | _ => s
  | .flush g j => flushBuf c s g j

/-- A run of the system.  Auxiliary of the model, without counterpart in /repo. -/
def run (c : Cfg) (s : St) (as : List Act) : St := as.foldl (step c) s

/-- After `o_buffers_shmem_init` (`src/utils/o_buffers.c:83-100`): no block is cached;
`shadowBlockNum` and `shadowTag` are not initialised, shared memory starts with zeros. -/
def init (disk : Key → Nat → Nat) (fex : Nat → Nat → Bool) (n : Nat) : St :=
  ⟨fun _ _ => ⟨none, some (0, 0), 0, false, fun _ => 0, none⟩, disk, fex,
    List.replicate n none, []⟩

end Verif.OBuffers
