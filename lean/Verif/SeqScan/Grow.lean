/-!
# Sequential scans: the growth of the shared array

The array of the downlinks to the disk is in a segment of shared memory.  If it is full, a participant makes a
segment of twice the size, copies the array, and makes it the one of all.  Entries are added under the lock
`downlinksPublish` in shared mode, the array grows under it in exclusive mode.

A segment is a function from the places to what is written there; `none` stands for memory nobody has written,
and for that behind the end of the segment as well.  The segments are numbered in the order of their creation.
-/

namespace Verif.SeqScan.Grow

/-- What a participant is about to do: nothing; to add a downlink; to give back the number beyond the capacity
(the lock is still held in shared mode); to look whether the array has to grow. -/
inductive Pc where
  | idle
  | want (d : Nat)
  | over (d idx : Nat)
  | grow (d idx : Nat)
deriving DecidableEq, Repr

/-- The state: the segments; `dsmHandle`, `dsmAllocated` and `downlinksCount`; the segment to which each
participant is attached (`scan->dsmSeg`) and what it is about to do; the number of segments made; all downlinks
added so far, in order. -/
structure St where
  segs : Nat → Nat → Option Nat
  cur : Nat
  cap : Nat
  count : Nat
  seg : Nat → Nat
  pc : Nat → Pc
  made : Nat
  added : List Nat

/-- The beginning, with a segment of this size.  src/btree/scan.c:2422-2435. -/
def init (cap : Nat) : St :=
  ⟨fun _ _ => none, 0, cap, 0, fun _ => 0, fun _ => .idle, 1, []⟩

/-- Change one value of a function. -/
def set {α : Type} (f : Nat → α) (x : Nat) (a : α) : Nat → α := fun y => if y = x then a else f y

/-- A participant is within the section in shared mode. -/
def Pc.isOver : Pc → Bool
  | .over _ _ => true
  | _ => false

/-- How many of the participants below `n`. -/
def count (f : Nat → Bool) : Nat → Nat
  | 0 => 0
  | n + 1 => count f n + if f n then 1 else 0

/-- The next step of a participant (`d` is the downlink it begins to add).  `add_on_disk_downlink`:
`want` is src/btree/scan.c:732-754 (a participant attaches to the segment of all, takes a number, and writes
the entry; within the section nobody reads the array); `over` is 756-758; `grow` is 760-792, which
has to wait for those within the section. -/
def step (n : Nat) (s : St) (w d : Nat) : Option St :=
  if w < n then
    match s.pc w with
    | .idle => some { s with pc := set s.pc w (.want d) }
    | .want d =>
      if s.count < s.cap then
        some { s with seg := set s.seg w s.cur, segs := set s.segs s.cur (set (s.segs s.cur) s.count (some d)),
                      count := s.count + 1, pc := set s.pc w .idle, added := s.added ++ [d] }
      else some { s with seg := set s.seg w s.cur, count := s.count + 1, pc := set s.pc w (.over d s.count) }
    | .over d i => some { s with count := s.count - 1, pc := set s.pc w (.grow d i) }
    | .grow d i =>
      if count (fun v => (s.pc v).isOver) n = 0 then
        if s.cap ≤ i then
          some { s with segs := set s.segs s.made (fun j => if j < s.count then s.segs (s.seg w) j else none),
                        cur := s.made, cap := s.cap * 2, seg := set s.seg w s.made, made := s.made + 1,
                        pc := set s.pc w (.want d) }
        else some { s with pc := set s.pc w (.want d) }
      else none
  else none

/-- A run: who takes a step, and a downlink. -/
def run (n : Nat) (s : St) : List (Nat × Nat) → Option St
  | [] => some s
  | e :: es =>
    match step n s e.1 e.2 with
    | none => none
    | some s' => run n s' es

/-- Nobody is within the section in shared mode: the array can be sorted. -/
def St.quiet (n : Nat) (s : St) : Prop := ∀ w, w < n → (s.pc w).isOver = false

/-- The array: the first `downlinksCount` places of the segment of all. -/
def St.array (s : St) : List (Option Nat) := (List.range s.count).map (s.segs s.cur)

end Verif.SeqScan.Grow
