/-!
# The lock file and the control file of an S3 bucket

How instances in S3 mode keep each other from using one bucket: the lock file
(`s3_put_lock_file`, `s3_delete_lock_file`), the check of the control file
(`s3_check_control`), all in src/s3/control.c, and where they are called
(src/orioledb.c:1346-1361, 1568-1576, 1628).  Any number of instances run; every request to
the bucket is one step.
-/

namespace Verif.S3Lock

/-- The members of `CheckpointControl` that `s3_check_control` compares:
`controlIdentifier`, `lastCheckpointNumber`, `sysTreesStartPtr`
(include/checkpoint/control.h:41-52). -/
structure Ctl where
  ident : Nat
  num : Nat
  lsn : Nat
  deriving DecidableEq, Repr

/-- The local file `orioledb_data/s3_lock` (control.c:33): it is absent, created but not yet
written, or holds an identifier (control.c:152-208). -/
inductive LockFile where
  | absent
  | empty
  | id (n : Nat)
  deriving DecidableEq, Repr

/-- Where an instance is.  `creating`: the lock file was created (control.c:188).  `putting`:
before the conditional PUT (control.c:215).  `told`: the PUT was refused, before the GET
(control.c:235-247).  `locked`: `s3_put_lock_file` returned.  `refused`: `s3_check_control`
returned false, before the deletion (orioledb.c:1354).  `running`: the start goes on. -/
inductive Pc where
  | off
  | creating
  | putting
  | told
  | locked
  | refused
  | running
  deriving DecidableEq, Repr

/-- An instance: its data directory and its postmaster. -/
structure Inst where
  pc : Pc := .off
  file : LockFile := .absent
  ctl : Option Ctl := none
  deriving DecidableEq, Repr

/-- The instances and the objects `data/orioledb_data/s3_lock` and
`data/orioledb_data/control` of the bucket (control.c:51, 212). -/
structure World where
  insts : Nat → Inst
  lock : Option Nat
  ctl : Option Ctl

/-- At first there is nothing in the bucket and no data directory has been used. -/
def World.init : World := ⟨fun _ => {}, none, none⟩

/-- Does `s3_check_control` return true (control.c:39-138)?  `mine` is the local control file,
none if it is absent or empty.  Not modelled: the FATAL errors of
`check_checkpoint_control`. -/
def checkControl (mine bucket : Option Ctl) : Bool :=
  match bucket with
  | none => true
  | some b =>
    match mine with
    | none => false
    | some m =>
      if m.ident ≠ b.ident then false
      else if m.num < b.num then false
      else if m.lsn < b.lsn then false
      else true

/-- What may happen. -/
inductive Act where
  /-- the postmaster starts and opens the lock file (control.c:152-192) -/
  | start (i : Nat)
  /-- the identifier `n`, made of the time and the process id, is written and synced
  (control.c:183-207) -/
  | write (i n : Nat)
  /-- the conditional PUT; `conflict` is the answer 409 (control.c:214-227) -/
  | put (i : Nat) (conflict : Bool)
  /-- the GET after the answer 412, and the comparison (control.c:235-270) -/
  | get (i : Nat)
  /-- `s3_check_control` (orioledb.c:1352) -/
  | check (i : Nat)
  /-- `s3_delete_lock_file` and the FATAL error (orioledb.c:1354-1359) -/
  | delete (i : Nat)
  /-- the server is shut down: `orioledb_on_shmem_exit` in the postmaster (orioledb.c:1574) -/
  | stop (i : Nat)
  /-- a backend crashes and the postmaster starts anew with new shared memory: it runs the
  callbacks of `before_shmem_exit` (orioledb.c:1628), but not `_PG_init` (1346-1361) -/
  | restart (i : Nat)
  /-- the postmaster is killed, or the machine fails, or a FATAL error such as that after ten
  conflicts (control.c:228-233) ends the start -/
  | kill (i : Nat)
  /-- a checkpoint writes the local control file (src/checkpoint/checkpoint.c:1941-1981);
  `ident` is the identifier made by the first one -/
  | checkpoint (i ident lsn : Nat)
  /-- the control file is put to the bucket (src/checkpoint/checkpoint.c:2389) -/
  | upload (i : Nat)
  /-- the data directory of `i` is copied to `j`, with the lock file or without; a base
  backup copies it (test/t/s3_test.py:958-962) -/
  | copy (i j : Nat) (withLock : Bool)
  deriving Repr

/-- Replace one instance (no counterpart in the code). -/
def World.set (w : World) (i : Nat) (x : Inst) : World :=
  { w with insts := fun j => if j = i then x else w.insts j }

/-- The identifier in the lock file, 0 if there is none (control.c:147, 155). -/
def LockFile.ident : LockFile → Nat
  | .id n => n
  | _ => 0

/-- The control file a checkpoint writes (src/checkpoint/checkpoint.c:1941-1981).
`sysTreesStartPtr` is a position in the WAL, which does not go back. -/
def nextCtl (c : Option Ctl) (ident lsn : Nat) : Ctl :=
  match c with
  | none => ⟨ident, 1, lsn⟩
  | some c => ⟨c.ident, c.num + 1, max c.lsn lsn⟩

/-- One step; an action whose turn it is not does nothing. -/
def step (w : World) : Act → World
  | .start i =>
    let x := w.insts i
    if x.pc = .off then
      match x.file with
      | .absent => w.set i { x with pc := .creating, file := .empty }
      | .empty => w
      | .id n => if n = 0 then w else w.set i { x with pc := .putting }
    else w
  | .write i n =>
    let x := w.insts i
    if x.pc = .creating then w.set i { x with pc := .putting, file := .id n } else w
  | .put i conflict =>
    let x := w.insts i
    if x.pc = .putting then
      if conflict then w
      else match w.lock with
        | none => { w.set i { x with pc := .locked } with lock := some x.file.ident }
        | some _ => w.set i { x with pc := .told }
    else w
  | .get i =>
    let x := w.insts i
    if x.pc = .told then
      match w.lock with
      | none => w.set i { x with pc := .off }
      | some m => if x.file.ident ≠ m then w.set i { x with pc := .off } else w.set i { x with pc := .locked }
    else w
  | .check i =>
    let x := w.insts i
    if x.pc = .locked then
      if checkControl x.ctl w.ctl then w.set i { x with pc := .running } else w.set i { x with pc := .refused }
    else w
  | .delete i =>
    let x := w.insts i
    if x.pc = .refused then { w.set i { x with pc := .off } with lock := none } else w
  | .stop i =>
    let x := w.insts i
    if x.pc = .running then { w.set i { x with pc := .off } with lock := none } else w
  | .restart i =>
    let x := w.insts i
    if x.pc = .running then { w with lock := none } else w
  | .kill i =>
    let x := w.insts i
    w.set i { x with pc := .off }
  | .checkpoint i ident lsn =>
    let x := w.insts i
    if x.pc = .running then w.set i { x with ctl := some (nextCtl x.ctl ident lsn) } else w
  | .upload i =>
    let x := w.insts i
    if x.pc = .running then { w with ctl := x.ctl } else w
  | .copy i j withLock =>
    let x := w.insts i
    let y := w.insts j
    if y.pc = .off then w.set j { pc := .off, file := if withLock then x.file else .absent, ctl := x.ctl } else w

/-- A run (no counterpart in the code: the order of the steps of all instances). -/
def run (w : World) (as : List Act) : World := as.foldl step w

end Verif.S3Lock
