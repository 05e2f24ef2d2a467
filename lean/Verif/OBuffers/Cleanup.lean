import Verif.OBuffers.Model

/-!
# Discarding old blocks

Model of the second half of `src/utils/o_buffers.c`.  Positions are integers, as in the code
(`int64`); they do not overflow.  The functions are modelled as running alone.
-/

namespace Verif.OBuffers

/-- `o_buffers_wipe` (`src/utils/o_buffers.c:507-537`). -/
def wipe (s : St) (tag : Nat) (first last : Int) : St :=
  { s with
    bufs := fun g j =>
      let b := s.bufs g j
      match b.dirty, b.id with
      | true, some (t, n) =>
        if t = tag ∧ first ≤ (n : Int) ∧ (n : Int) ≤ last then { b with id := none, dirty := false } else b
      | _, _ => b }

/-- `unlink_file` (`src/utils/o_buffers.c:146-159`). -/
def unlinkFile (c : Cfg) (s : St) (tag : Nat) (f : Int) : St :=
  { s with
    fex := fun t n => if t = tag ∧ (n : Int) = f then false else s.fex t n,
    disk := fun k => if k.1 = tag ∧ (k.2 : Int) / c.perFile = f then fun _ => 0 else s.disk k }

/-- `punch_fd_hole` over blocks `from`..`to` of an existing file
(`src/utils/o_buffers.c:608-616`): they read as zeros. -/
def punch (s : St) (tag : Nat) (f : Int) (lo hi : Int) : St :=
  if s.fex tag f.toNat then
    { s with disk := fun k => if k.1 = tag ∧ lo ≤ (k.2 : Int) ∧ (k.2 : Int) ≤ hi then fun _ => 0 else s.disk k }
  else s

/-- One round of the loop (`src/utils/o_buffers.c:597-617`). -/
def discardFile (c : Cfg) (sparse : Bool) (tag : Nat) (first last : Int) (s : St) (f : Int) : St :=
  let fileFirst := f * c.perFile
  let fileLast := fileFirst + c.perFile - 1
  let lo := max first fileFirst
  let hi := min last fileLast
  if lo = fileFirst ∧ hi = fileLast then unlinkFile c s tag f
  else if sparse then punch s tag f lo hi
  else s

/-- The file numbers `a`..`b` (`src/utils/o_buffers.c:597`). -/
def fileRange (a b : Int) : List Int := (List.range (b - a + 1).toNat).map fun (i : Nat) => a + (i : Int)

/-- `o_buffers_unlink_blocks_range` (`src/utils/o_buffers.c:578-618`).  `sparse` is
`orioledb_use_sparse_files`. -/
def unlinkBlocksRange (c : Cfg) (sparse : Bool) (s : St) (tag : Nat) (first last : Int) : St :=
  if first > last then s
  else
    (fileRange (first / c.perFile) (last / c.perFile)).foldl (discardFile c sparse tag first last)
      (wipe s tag first last)

/-- Case 1 of `unlink_unretained_o_buffers` (`src/utils/o_buffers.c:667-687`). -/
def cleanBelow (c : Cfg) (sparse : Bool) (s : St) (tag : Nat) (ipb cs ce retainStart : Int) : St :=
  let finish := min ce retainStart
  if cs < finish then
    let firstBlock := (cs + ipb - 1) / ipb
    let lastBlock := finish / ipb - 1
    let retainBlock := retainStart / ipb
    let leadFile := firstBlock / c.perFile
    let firstBlock := if (leadFile + 1) * c.perFile ≤ retainBlock then leadFile * c.perFile else firstBlock
    unlinkBlocksRange c sparse s tag firstBlock lastBlock
  else s

/-- Case 3 of `unlink_unretained_o_buffers` (`src/utils/o_buffers.c:689-715`). -/
def cleanGap (c : Cfg) (sparse : Bool) (s : St) (tag : Nat) (ipb cs ce ckS ckE trs : Int) : St :=
  if ckS < ckE ∧ ckE < trs then
    let gapStart := max cs ckE
    let gapEnd := min ce trs
    if gapStart < gapEnd then
      let firstBlock := (gapStart + ipb - 1) / ipb
      let lastBlock := gapEnd / ipb - 1
      let retainBlock := trs / ipb
      let chkpEndBlock := (ckE + ipb - 1) / ipb
      let leadFile := firstBlock / c.perFile
      let leadFileFirst := leadFile * c.perFile
      let firstBlock :=
        if leadFileFirst ≥ chkpEndBlock ∧ leadFileFirst + c.perFile ≤ retainBlock then leadFileFirst
        else firstBlock
      unlinkBlocksRange c sparse s tag firstBlock lastBlock
    else s
  else s

/-- `unlink_unretained_o_buffers` (`src/utils/o_buffers.c:641-716`). -/
def unlinkUnretained (c : Cfg) (sparse : Bool) (s : St) (tag : Nat) (ipb cs ce ckS ckE trs : Int) : St :=
  if cs ≥ ce then s
  else
    let retainStart := if ckS < ckE then min ckS trs else trs
    cleanGap c sparse (cleanBelow c sparse s tag ipb cs ce retainStart) tag ipb cs ce ckS ckE trs

end Verif.OBuffers
