import Verif.S3Backup.Sums

/-!
# Files of PGDATA that are uploaded one by one (src/s3/worker.c, src/s3/checkpoint.c)

The checkpointer schedules a task for each file of 64 kB and more; the S3 workers compute the checksums, upload the
changed files and write each its own list of checksums; at the end the checkpointer joins the lists.
-/

namespace Verif.S3Backup

/-- A worker: its flag `workersInProgress` (src/s3/worker.c:60), the task it works on (`workers_locations`,
src/s3/worker.c:998), how far it is with it (0: nothing, 1: checksum stored, 2: uploaded or not changed) and its
`checksum_state` (src/s3/worker.c:67; `none` is the null pointer; its buffer is given as entries). -/
structure Worker where
  flag : Bool
  cur : Option (Bytes × Bytes)
  pc : Nat
  buf : Option (List Entry)
deriving DecidableEq, Repr

/-- A backup of the files that are uploaded one by one: files still to be scheduled; tasks in the queue; tasks put into
the queue and not counted yet (src/s3/worker.c:890, 897); `fileChecksumsCnt` (unbounded here, it may be negative for a
moment); the workers, their files of checksums; the objects put under the number of the backup; the joined file.
Simplified: files do not change or vanish during the backup. -/
structure BigSt where
  sched : List (Bytes × Bytes)
  queue : List (Bytes × Bytes)
  lag : Nat
  cnt : Int
  ws : Nat → Worker
  wfile : Nat → List Entry
  objs : List (Bytes × Bytes)
  out : Option (List Entry)

/-- The beginning of a backup: `s3_workers_checkpoint_init` (src/s3/worker.c:163-181).  Simplified: the workers have
ended what they had to do for a former backup. -/
def BigSt.init (fs : List (Bytes × Bytes)) : BigSt :=
  ⟨fs, [], 0, 0, fun _ => ⟨false, none, 0, none⟩, fun _ => [], [], none⟩

/-- The steps. -/
inductive BigEv where
  | put | inc | pick (w : Nat) | record (w : Nat) | upload (w : Nat) | done (w : Nat) | idle (w : Nat)
  | restart (w : Nat) | finish
deriving DecidableEq, Repr

/-- Change of one worker. -/
def setW (f : Nat → Worker) (w : Nat) (x : Worker) : Nat → Worker := fun v => if v = w then x else f v

/-- Change of the file of one worker. -/
def setF (f : Nat → List Entry) (w : Nat) (x : List Entry) : Nat → List Entry := fun v => if v = w then x else f v

/-- One step; `nw` is `s3_num_workers`, `n` the number of the checkpoint, `T` the file of checksums of the former
backup.
* `put`, `inc`: `s3_schedule_pg_file_write` (src/s3/worker.c:873-900);
* `pick`: `s3_queue_try_pick_task` (src/s3/worker.c:996-998);
* `record`: the flag, the state, the flush of a full buffer, the checksum (src/s3/worker.c:557-570);
* `upload`: `s3_put_object_with_contents` for a changed file (src/s3/worker.c:572-574);
* `done`: the decrement and the end of the task (src/s3/worker.c:582, 586, 1000);
* `idle`: the end of the work (src/s3/worker.c:1003-1018);
* `restart`: the worker process fails (for example with the FATAL error of an upload, src/s3/requests.c:582) and is
  started again; it begins its task anew (src/s3/worker.c:966-970), its `checksum_state` is gone;
* `finish`: `s3_workers_checkpoint_finish` with its waiting (src/s3/worker.c:138-160, 186-256; the checkpointer has
  scheduled all files before). -/
def BigSt.step (H : Bytes → Bytes) (nw n : Nat) (T : List Entry) (s : BigSt) : BigEv → Option BigSt
  | .put =>
    match s.sched, s.lag with
    | p :: r, 0 => some { s with sched := r, queue := s.queue ++ [p], lag := 1 }
    | _, _ => none
  | .inc =>
    match s.lag with
    | 1 => some { s with lag := 0, cnt := s.cnt + 1 }
    | _ => none
  | .pick w =>
    if w < nw then
      match (s.ws w).cur, s.queue with
      | none, p :: q => some { s with queue := q, ws := setW s.ws w { s.ws w with cur := some p, pc := 0 } }
      | _, _ => none
    else none
  | .record w =>
    if w < nw then
      match (s.ws w).cur with
      | some p =>
        if (s.ws w).pc = 0 then
          let buf := (s.ws w).buf.getD []
          let e := (entryOf H n T p.1 p.2).1
          if buf.length = sumsMax then
            some { s with
              wfile := setF s.wfile w (s.wfile w ++ buf)
              ws := setW s.ws w ⟨true, some p, 1, some [e]⟩ }
          else some { s with ws := setW s.ws w ⟨true, some p, 1, some (buf ++ [e])⟩ }
        else none
      | none => none
    else none
  | .upload w =>
    if w < nw then
      match (s.ws w).cur with
      | some p =>
        if (s.ws w).pc = 1 then
          some { s with
            objs := if (entryOf H n T p.1 p.2).2 then s.objs ++ [p] else s.objs
            ws := setW s.ws w { s.ws w with pc := 2 } }
        else none
      | none => none
    else none
  | .done w =>
    if w < nw then
      match (s.ws w).cur with
      | some _ =>
        if (s.ws w).pc = 2 then
          some { s with cnt := s.cnt - 1, ws := setW s.ws w { s.ws w with cur := none, pc := 0 } }
        else none
      | none => none
    else none
  | .idle w =>
    if w < nw then
      match (s.ws w).cur with
      | none =>
        if (s.ws w).flag = true ∧ s.cnt = 0 then
          some { s with
            wfile := setF s.wfile w (s.wfile w ++ (s.ws w).buf.getD [])
            ws := setW s.ws w { s.ws w with flag := false, buf := none } }
        else none
      | some _ => none
    else none
  | .restart w =>
    if w < nw then some { s with ws := setW s.ws w { s.ws w with pc := 0, buf := none } } else none
  | .finish =>
    if s.sched = [] ∧ s.lag = 0 ∧ s.cnt = 0 ∧ (List.range nw).all (fun w => !(s.ws w).flag) ∧ s.out = none then
      some { s with out := some ((List.range nw).flatMap s.wfile) }
    else none

/-- A series of steps. -/
def BigSt.run (H : Bytes → Bytes) (nw n : Nat) (T : List Entry) (s : BigSt) : List BigEv → Option BigSt
  | [] => some s
  | e :: es =>
    match s.step H nw n T e with
    | none => none
    | some s => s.run H nw n T es

/-- The last checkpoint number, the file `file_checksums` and the objects in the bucket under each number. -/
structure BigWorld where
  num : Nat
  table : List Entry
  objs : Nat → List (Bytes × Bytes)

/-- Before the first backup. -/
def BigWorld.init : BigWorld := ⟨0, [], fun _ => []⟩

/-- A backup of these files with these steps (src/s3/checkpoint.c:233-320).  If the steps do not reach the end, it is
given up: the number is used up, objects stay in the bucket, `file_checksums` stays as it was. -/
def BigWorld.backup (H : Bytes → Bytes) (nw : Nat) (w : BigWorld) (fs : List (Bytes × Bytes)) (es : List BigEv) :
    Option BigWorld :=
  match (BigSt.init fs).run H nw (w.num + 1) w.table es with
  | none => none
  | some s => some ⟨w.num + 1, s.out.getD w.table, fun k => if k = w.num + 1 then s.objs else w.objs k⟩

/-- Did the steps reach the end of the backup? -/
def complete (H : Bytes → Bytes) (nw : Nat) (w : BigWorld) (fs : List (Bytes × Bytes)) (es : List BigEv) : Bool :=
  ((BigSt.init fs).run H nw (w.num + 1) w.table es).any (fun s => s.out.isSome)

/-- `download_file` of one object (orioledb_s3_loader.py:257-303): nothing is written when it does not exist. -/
def getObj (objs : List (Bytes × Bytes)) (nm : Bytes) (fs : Fs) : Fs :=
  match objs.find? (fun x => x.1 == nm) with
  | some x => fs.put nm x.2
  | none => fs

/-- `download_unchanged_files` (orioledb_s3_loader.py:367-404): the files listed under the former number are fetched,
those under smaller numbers by the recursive call. -/
def loadBig (objs : Nat → List (Bytes × Bytes)) : (num : Nat) → (dict : List Entry) → Fs → Fs
  | 0, _, fs => fs
  | 1, _, fs => fs
  | n + 2, dict, fs =>
    let here := dict.filter (fun e => !(e.ck == n + 2) && !(e.ck < n + 1))
    let prev := dict.filter (fun e => !(e.ck == n + 2) && e.ck < n + 1)
    let fs := here.foldl (fun fs e => getObj (objs (n + 1)) e.name fs) fs
    if prev = [] then fs else loadBig objs (n + 1) prev fs

/-- The loader for these files (orioledb_s3_loader.py:117-133, 494-517): all objects of the last checkpoint, then the
files that are listed under a smaller number; `none` is an exception. -/
def BigWorld.restore (w : BigWorld) : Option Fs :=
  if w.table.any (fun e => w.num < e.ck) then none
  else some (loadBig w.objs w.num (w.table.filter (fun e => e.ck < w.num))
    ((w.objs w.num).foldl (fun fs x => fs.put x.1 x.2) Fs.empty))

end Verif.S3Backup
