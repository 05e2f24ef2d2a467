import Verif.SeqScan.Sort

/-!
# Sequential scans: the leaves of a parallel scan

The participants take the downlinks one by one.  The leaves in memory are read by the one who has taken the
downlink.  The downlinks to the disk are added to a shared array, and read when all downlinks are taken: the
array is sorted by one of the participants, and then the participants take its entries by a counter.

The downlinks are the numbers below `m`, in the order in which they are taken
(`Verif/SeqScan/Walk.lean`).  The growth of the array (`Verif/SeqScan/Grow.lean`), and ordered scans, which
do without the array, are left out.
-/

namespace Verif.SeqScan.Share

/-- What a participant is about to do: take a downlink; leave the number of writers; add a downlink to the
array; wait for the writers; sort; take a number; compare it with the size of the array; nothing. -/
inductive Pc where
  | next
  | got (d : Nat)
  | put (d : Nat)
  | wait
  | sort
  | fetch
  | chk (i : Nat)
  | done
deriving DecidableEq, Repr

/-- The shared state (`ParallelOScanDescData`: include/tableam/handler.h:196-219): the number of downlinks
taken, `downlinksWritersInProgress`, the array with `downlinksCount`, `O_PARALLEL_DOWNLINKS_SORTED`,
`downlinkIndex`; what each participant is about to do; the leaves read from memory, and those read from the
disk, with their places in the array. -/
structure St where
  pos : Nat
  writers : Nat
  arr : List Nat
  sorted : Bool
  idx : Nat
  pc : Nat → Pc
  mem : List Nat
  dsk : List (Nat × Nat)

/-- The beginning. -/
def init : St := ⟨0, 0, [], false, 0, fun _ => .next, [], []⟩

/-- Change what a participant is about to do. -/
def St.at (s : St) (w : Nat) (p : Pc) : St := { s with pc := fun v => if v = w then p else s.pc v }

/-- The order of the array.  `cmp_downlinks`: src/btree/scan.c:797-809. -/
def le (disk : Nat → Option Nat) (a b : Nat) : Bool := decide ((disk a).getD 0 ≤ (disk b).getD 0)

/-- The next step of a participant; `n` participants, `m` downlinks, `disk` tells the place of those to the
disk.
`next`: `get_next_downlink`, src/btree/scan.c:1423-1446 (under the spinlock `intpageAccess`).
`got`: `iterate_internal_page`, src/btree/scan.c:2098-2101, 2131-2136.
`put`: `add_on_disk_downlink`, src/btree/scan.c:745-754 (under the lock `downlinksPublish`).
`wait`, `sort`: `switch_to_disk_scan`, src/btree/scan.c:829-872.
`fetch`, `chk`: `load_next_disk_leaf_page`, src/btree/scan.c:2265-2280. -/
def step (n m : Nat) (disk : Nat → Option Nat) (s : St) (w : Nat) : Option St :=
  if w < n then
    match s.pc w with
    | .next =>
      if s.pos < m then some ({ s with pos := s.pos + 1, writers := s.writers + 1 }.at w (.got s.pos))
      else some (s.at w .wait)
    | .got d =>
      if (disk d).isSome then some ({ s with writers := s.writers - 1 }.at w (.put d))
      else some ({ s with writers := s.writers - 1, mem := s.mem ++ [d] }.at w .next)
    | .put d => some ({ s with arr := s.arr ++ [d] }.at w .next)
    | .wait => if s.writers = 0 then some (s.at w .sort) else some s
    | .sort =>
      if s.sorted then some (s.at w .fetch)
      else some ({ s with arr := sort (le disk) s.arr, idx := 0, sorted := true }.at w .fetch)
    | .fetch => some ({ s with idx := s.idx + 1 }.at w (.chk s.idx))
    | .chk i =>
      match s.arr[i]? with
      | none => some (s.at w .done)
      | some d => some ({ s with dsk := s.dsk ++ [(i, d)] }.at w .fetch)
    | .done => none
  else none

/-- A run: the participants in the order of their steps. -/
def run (n m : Nat) (disk : Nat → Option Nat) (s : St) : List Nat → Option St
  | [] => some s
  | w :: ws =>
    match step n m disk s w with
    | none => none
    | some s' => run n m disk s' ws

/-- The leaves read. -/
def St.read (s : St) : List Nat := s.mem ++ s.dsk.map (fun x => x.2)

/-- All participants have finished. -/
def St.finished (n : Nat) (s : St) : Prop := ∀ w, w < n → s.pc w = .done

end Verif.SeqScan.Share
