/-!
# The list of parts to upload

After a write the part is put in front of a list of four in the meta page of the tree; the part which falls out at the
end is scheduled for upload.  A checkpoint schedules those in the list.  Nothing keeps two processes from changing the
list at once, so the steps here are single reads and writes of its slots.

Simplified: one tree and one number of checkpoint; segment, part and checkpoint number of a slot are one value, read
and written at once (three assignments in the code).
-/

namespace Verif.S3Parts.Dirty

/-- `MAX_NUM_DIRTY_PARTS`.  include/btree/btree.h:228. -/
def slotsNum : Nat := 4

/-- Where a process is.  `at e i cur`: in `btree_smgr_schedule_s3_write` for part `e`, before the read of slot `i`, with
`cur` to be put there; `mid`: it has read the slot (src/btree/io.c:557-567).  `fl i`: in `btree_s3_flush`, before
slot `i`; `flc i`: it has scheduled the part in the slot and will clear it (src/btree/io.c:508-527). -/
inductive DPc where
  | idle
  | at (e i cur : Nat)
  | mid (e i cur : Nat) (tmp : Option Nat)
  | fl (i : Nat)
  | flc (i : Nat)
deriving DecidableEq, Repr

/-- The slots; the parts written since their upload was last scheduled (for the statements only); the processes. -/
structure DSt where
  slot : Nat → Option Nat
  pend : Nat → Bool
  pc : Nat → DPc

/-- An empty list.  src/btree/page_contents.c:502-506. -/
def dinit : DSt := ⟨fun _ => none, fun _ => false, fun _ => .idle⟩

/-- Change one value of a function. -/
def upd {α : Type} (f : Nat → α) (x : Nat) (a : α) : Nat → α := fun y => if y = x then a else f y

/-- What a process does: it has written to part `e`; it goes on; it begins a flush. -/
inductive DAct where
  | wrote (e : Nat)
  | go
  | flush
deriving DecidableEq, Repr

/-- The next step of a process which is in one of the two functions.  src/btree/io.c:508-527, 557-585. -/
def dgo (s : DSt) (p : Nat) : Option DSt :=
  match s.pc p with
  | .idle => none
  | .at e i cur => some { s with pc := upd s.pc p (.mid e i cur (s.slot i)) }
  | .mid e i cur tmp =>
    match tmp with
    | none => some { s with slot := upd s.slot i (some cur), pc := upd s.pc p .idle }
    | some y =>
      if y = e then some { s with slot := upd s.slot i (some cur), pc := upd s.pc p .idle }
      else if i + 1 = slotsNum then
        some { slot := upd s.slot i (some cur), pend := upd s.pend y false, pc := upd s.pc p .idle }
      else some { s with slot := upd s.slot i (some cur), pc := upd s.pc p (.at e (i + 1) y) }
  | .fl i =>
    if i < slotsNum then
      match s.slot i with
      | some y => some { s with pend := upd s.pend y false, pc := upd s.pc p (.flc i) }
      | none => some { s with pc := upd s.pc p (.flc i) }
    else some { s with pc := upd s.pc p .idle }
  | .flc i => some { s with slot := upd s.slot i none, pc := upd s.pc p (.fl (i + 1)) }

/-- One step of process `p`.  src/btree/io.c:554-556, 665-676, 508. -/
def dstep (s : DSt) (p : Nat) : DAct → Option DSt
  | .wrote e =>
    if s.pc p = .idle then some { s with pend := upd s.pend e true, pc := upd s.pc p (.at e 0 e) } else none
  | .go => dgo s p
  | .flush => if s.pc p = .idle then some { s with pc := upd s.pc p (.fl 0) } else none

/-- A run of the processes below `n`. -/
def drun (n : Nat) (s : DSt) : List (Nat × DAct) → Option DSt
  | [] => some s
  | (p, a) :: es =>
    if p < n then
      match dstep s p a with
      | none => none
      | some s' => drun n s' es
    else none

/-- A run in which no process makes a step while another one is in one of the two functions. -/
def apart (n : Nat) (s : DSt) : List (Nat × DAct) → Bool
  | [] => true
  | (p, a) :: es =>
    (List.range n).all (fun q => q == p || s.pc q == .idle) &&
      match dstep s p a with
      | none => true
      | some s' => apart n s' es

end Verif.S3Parts.Dirty
