import Verif.SeqScan.WalkProofs
import Verif.SeqScan.ShareProofs
import Verif.SeqScan.FilterProofs
import Verif.SeqScan.MergeProofs
import Verif.SeqScan.GrowProofs

/-!
# Sequential scans: properties C92–C96

The models are in `Walk.lean`, `Share.lean`, `Filter.lean`, `Merge.lean` and `Grow.lean`.
-/

namespace Verif.SeqScan

theorem any_run {α : Type} {x : Option α} {p : α → Bool} (h : x.any p = true) : ∃ s, x = some s ∧ p s = true := by
  cases x with
  | none => cases h
  | some s => exact ⟨s, rfl, h⟩

/-! ## C92: each key is read exactly once, however the pages of level 1 change during the scan -/

/-- C92, in part: when a scan has finished, each key is in exactly one of the ranges which have been read.
The pages of level 1 may have been split and merged at any time between two loads; in parallel scans the next
page may be loaded at any time.

What is missing: if the leftmost page, merged with its right neighbour meanwhile, is loaded a second time, the
range of its first item must not be read by an iterator (`C92_violated`). -/
theorem C92_partial {evs : List Ev} {s : St} (hr : run init evs = some s) (hf : s.finished = true)
    (hc : ∀ pre post t, evs = pre ++ .claim true :: post → run init pre = some t → t.again = false) :
    ∀ k, s.done.countP (fun r => r.has k) = 1 := by
  have hi := run_inv evs init s inv_init hr hc
  obtain ⟨cur, next, done⟩ := s
  intro k
  cases cur with
  | none => cases hf
  | some b =>
    simp only [St.finished, Bool.and_eq_true, Option.isNone_iff_eq_none, decide_eq_true_eq] at hf
    cases next with
    | none =>
      have := hi.2 k
      dsimp only at this
      rw [rest_nil hf.2, times_nil, hf.1] at this
      exact this
    | some b' =>
      have : b.page.high.isSome = true := hi.2.1
      rw [hf.1] at this
      cases this

/-- C92 if the leftmost page is not loaded again: each key is read once. -/
theorem C92_right_partial {evs : List Ev} {s : St} (hr : run init evs = some s) (hf : s.finished = true)
    (hl : ∀ pre p post t, evs = pre ++ .load p :: post → run init pre = some t → t.cur ≠ none → p.low ≠ none) :
    ∀ k, s.done.countP (fun r => r.has k) = 1 := by
  refine C92_partial hr hf ?_
  intro pre post t he ht
  have hla := run_later pre init t ⟨by simp [init], by simp [init]⟩ ht (by
    intro pre' p post' t' he' ht' hc'
    exact hl pre' p (post' ++ .claim true :: post) t' (by rw [he, he']; simp) ht' hc')
  unfold St.again
  cases hcur : t.cur with
  | none => rfl
  | some b =>
    cases hp : b.prev with
    | none => simp [hp]
    | some x =>
      have := hla.1 b hcur (by rw [hp]; rfl)
      cases hlow : b.page.low with
      | none => rw [hlow] at this; cases this
      | some y => simp [hlow]

/-- C92 if all leaves are read as they are: each key is read once, even if the leftmost page is loaded again. -/
theorem C92_leaves_partial {evs : List Ev} {s : St} (hr : run init evs = some s) (hf : s.finished = true)
    (hl : Ev.claim true ∉ evs) : ∀ k, s.done.countP (fun r => r.has k) = 1 :=
  C92_partial hr hf (fun pre post t he _ => absurd (by rw [he]; simp) hl)

/-- The events of the case. -/
def walkCase : List Ev :=
  [.load ⟨none, [10], some 20⟩, .claim false, .load ⟨some 15, [25], some 40⟩, .claim true, .flip, .claim true,
    .load ⟨some 40, [50], none⟩, .flip, .claim true, .claim false]

/-- A case: after the first page the next one has been split at another place; an iterator reads from 20 to 25,
the leaf from 25 on has been split and is read by an iterator as well. -/
theorem C92_case : (∃ s, run init walkCase = some s ∧ s.finished = true ∧
      s.done = [⟨none, some 10⟩, ⟨some 20, some 25⟩, ⟨some 10, some 20⟩, ⟨some 25, some 40⟩, ⟨some 40, some 50⟩,
        ⟨some 50, none⟩]) ∧
    ∀ pre post t, walkCase = pre ++ .claim true :: post → run init pre = some t → t.again = false := by
  refine ⟨?_, never_of walkCase init (by decide +kernel)⟩
  obtain ⟨s, h1, h2⟩ := any_run (x := run init walkCase) (p := fun s => s.finished && decide (s.done =
    [⟨none, some 10⟩, ⟨some 20, some 25⟩, ⟨some 10, some 20⟩, ⟨some 25, some 40⟩, ⟨some 40, some 50⟩, ⟨some 50, none⟩]))
    (by decide +kernel)
  simp only [Bool.and_eq_true, decide_eq_true_eq] at h2
  exact ⟨s, h1, h2.1, h2.2⟩

/-- The failing case: the leftmost page and its right neighbour are merged after the first has been read; the
page found by the key 20 is the leftmost page again.  Its leaf from 20 on has been split, and is read by an
iterator, from the left end of the tree: the keys below 20 are read twice. -/
theorem C92_violated : ∃ evs s, run init evs = some s ∧ s.finished = true ∧ s.done.countP (fun r => r.has 5) = 2 := by
  obtain ⟨s, h1, h2⟩ := any_run (p := fun s : St => s.finished && decide (s.done.countP (fun r => r.has 5) = 2))
    (x := run init [.load ⟨none, [10], some 20⟩, .claim false, .claim false, .load ⟨none, [10, 20, 30], none⟩, .flip,
      .claim true, .claim false]) (by decide +kernel)
  simp only [Bool.and_eq_true, decide_eq_true_eq] at h2
  exact ⟨_, s, h1, h2.1, h2.2⟩

/-! ## C93: the participants of a parallel scan read each leaf exactly once -/

namespace Share

/-- C93, first half: no leaf is read twice, in any order of the steps, with any number of participants. -/
theorem C93_twice_partial {n m : Nat} {disk : Nat → Option Nat} {ws : List Nat} {s : St}
    (hr : run n m disk init ws = some s) : s.read.Nodup ∧ ∀ d ∈ s.read, d < m := by
  have hi := run_inv ws init s (inv_init m disk) hr
  refine ⟨inv_nodup hi, ?_⟩
  intro d hd
  have hpos := hi.pos
  rcases List.mem_append.mp hd with h | h
  · have := (hi.mem d h).1; omega
  · rw [List.mem_map] at h
    obtain ⟨⟨i, e⟩, h1, rfl⟩ := h
    have := (hi.arr _ (List.mem_of_getElem? (hi.dsk i e h1).2.2)).1
    dsimp only
    omega

/-- C93, in part: when all participants have finished, each leaf has been read exactly once, if nobody adds a
downlink to the array after it has been sorted.

What is missing: this is not guaranteed; a participant leaves the number of writers before it adds the downlink
(`C93_violated`). -/
theorem C93_partial {n m : Nat} {disk : Nat → Option Nat} {ws : List Nat} {s : St} (hn : 0 < n)
    (hr : run n m disk init ws = some s) (hf : s.finished n) (ht : Timely n m disk init ws) :
    ∀ d, d < m → s.read.count d = 1 := by
  intro d hd
  have hi := run_inv ws init s (inv_init m disk) hr
  have hfu := run_full ws init s (inv_init m disk) (full_init m) hr ht
  have hmem := all_read hn hi hfu (fun v hv => run_idle ws init s hr v hv) hf d hd
  have h1 := List.nodup_iff_count.mp (inv_nodup hi) d
  have h2 := List.count_pos_iff.mpr hmem
  omega

/-- C93 for one participant: each leaf is read exactly once. -/
theorem C93_one_partial {m : Nat} {disk : Nat → Option Nat} {ws : List Nat} {s : St}
    (hr : run 1 m disk init ws = some s) (hf : s.finished 1) : ∀ d, d < m → s.read.count d = 1 :=
  C93_partial (by omega) hr hf (one_timely ws)

/-- The leaves of the cases: those with even numbers are on the disk, the first at the end. -/
def places (d : Nat) : Option Nat := if d % 2 = 0 then some (10 - d) else none

/-- A case: two participants take turns; all four leaves are read, those on the disk in their order there. -/
theorem C93_case : let ws := [0, 1, 0, 1, 0, 1, 0, 1, 0, 1, 0, 1, 0, 1, 0, 1, 0, 1, 0, 1, 0, 1, 0, 1]
    Timely 2 4 places init ws ∧
    ∃ s, run 2 4 places init ws = some s ∧
      ((s.pc 0 == .done) && (s.pc 1 == .done) && decide (s.mem = [1, 3]) && decide (s.dsk = [(0, 2), (1, 0)])) = true :=
  ⟨timely_of _ _ (by decide +kernel), any_run (by decide +kernel)⟩

/-- The failing case: a participant has left the number of writers, and is about to add its downlink to the
array; the other one sees no writer, sorts the empty array, takes the number 0, and finishes.  The first one adds
the downlink at the place 0, and takes the number 1: the leaf is not read. -/
theorem C93_violated : ∃ ws s, run 2 1 places init ws = some s ∧ s.finished 2 ∧ 0 ∉ s.read := by
  obtain ⟨s, h1, h2⟩ := any_run (p := fun s : St => (s.pc 0 == .done) && (s.pc 1 == .done) && decide (s.read = []))
    (x := run 2 1 places init [0, 0, 1, 1, 1, 1, 1, 0, 0, 0, 0, 0, 0]) (by decide +kernel)
  simp only [Bool.and_eq_true, decide_eq_true_eq, beq_iff_eq] at h2
  refine ⟨_, s, h1, ?_, by rw [h2.2]; simp⟩
  intro w hw
  have : w = 0 ∨ w = 1 := by omega
  rcases this with rfl | rfl
  · exact h2.1.1
  · exact h2.1.2

end Share

/-! ## C94: a scan with a range of keys returns the rows in the range -/

namespace Filter

/-- C94, in part, for a scan in order: exactly the rows in the range, in order, wherever the leaves are. -/
theorem C94_ordered_partial {ls : List Leaf} (ht : Tree none ls) (lo hi : Nat) :
    ordered lo hi ls = (ls.flatMap (fun l => l.rows)).filter (fun k => decide (lo ≤ k ∧ k ≤ hi)) :=
  ordered_eq ls none ht

/-- C94, in part, for a scan without order: exactly the rows in the range, if all leaves are in memory, or if no
leaf has both a row past the range and a lower bound within it.

What is missing: a row past the range finishes the scan, though leaves on the disk have not been read
(`C94_violated`). -/
theorem C94_partial {ls : List Leaf} (ht : Tree none ls) (lo hi : Nat)
    (h : (∀ l ∈ ls, l.place = none) ∨ ∀ l ∈ ls, l.past hi = true ∨ ∀ k ∈ l.rows, k ≤ hi) :
    (scan lo hi ls).Perm ((ls.flatMap (fun l => l.rows)).filter (fun k => decide (lo ≤ k ∧ k ≤ hi))) := by
  rcases h with h | h
  · rw [scan_memory h, ordered_eq ls none ht]
    exact List.Perm.refl _
  · exact scan_split ht h

/-- A tree of four leaves, two of them on the disk. -/
def four : List Leaf :=
  [⟨some 8, none, some 10, [1, 2]⟩, ⟨none, some 10, some 20, [10, 12]⟩, ⟨some 3, some 20, some 30, [21, 25]⟩,
    ⟨none, some 30, none, [30, 35]⟩]

theorem four_tree : Tree none four := by
  simp [four, Tree]

/-- A case: the range ends where a leaf ends; the leaves on the disk are read last, in their order there. -/
theorem C94_case : scan 2 29 four = [10, 12, 21, 25, 2] ∧ ordered 2 29 four = [2, 10, 12, 21, 25] ∧
    ∀ l ∈ four, l.past 29 = true ∨ ∀ k ∈ l.rows, k ≤ 29 := by decide +kernel

/-- The failing case: the row 12 is past the range from 0 to 11, and finishes the scan; the leaf with the rows 1
and 2, which is on the disk, is not read. -/
theorem C94_violated : scan 0 11 four = [10] ∧
    (four.flatMap (fun l => l.rows)).filter (fun k => decide (0 ≤ k ∧ k ≤ 11)) = [1, 2, 10] := by decide +kernel

end Filter

/-! ## C95: the rows of a leaf in the order of the scan, each key once, in the right version -/

namespace Merge

/-- C95, in part, for forward scans: the rows are in ascending order of their keys, no key twice, and a key is
returned with a version if and only if this is the version to be returned: the own one of the page, otherwise that
of the historical images, otherwise that of the page.

What is missing: backward scans with historical images or with an iterator (`C95_violated`,
`C95_iter_violated`). -/
theorem C95_partial {hik : Option Nat} {l : List Live} {hs : List Hist} (iter : Bool)
    (hl : l.Pairwise (fun a b => a.key < b.key)) (hh : hs.Pairwise (fun a b => a.key < b.key))
    (hu : ∀ x ∈ l, ∀ b, hik = some b → x.key < b) :
    (rows true iter hik l hs).Pairwise (fun a b => a.1 < b.1) ∧
    ∀ k v, (k, v) ∈ rows true iter hik l hs ↔ (∀ b, hik = some b → k < b) ∧ expect l hs k = some v := by
  have he : rows true iter hik l hs = mrg hik l hs := by
    unfold rows
    have : (if iter = true then true else true) = true := by cases iter <;> rfl
    dsimp only
    rw [this]
    refine leaf_mrg hik l _ _ hs l (start_at l) ?_
    have : (l.length + 1) * (hs.length + 1) = l.length * hs.length + l.length + hs.length + 1 := by
      rw [Nat.add_mul, Nat.mul_add, Nat.mul_add]; omega
    omega
  rw [he]
  have := mrg_spec hik l hs hl hh hu
  exact ⟨this.1, fun k v => this.2 (k, v)⟩

/-- C95, in part, for backward scans: without historical images and without an iterator the rows are those of
the page, from the last to the first. -/
theorem C95_backward_partial (hik : Option Nat) (l : List Live) :
    rows false false hik l [] = (l.reverse).flatMap (fun x => row x.key x.ver) := by
  unfold rows
  cases l with
  | nil => rfl
  | cons x l =>
    have := leaf_back hik (x :: l) l.length (((x :: l).length + 1) * (([] : List Hist).length + 1)) (by simp) (by simp)
    rw [show (x :: l).take (l.length + 1) = x :: l from List.take_length (l := x :: l)] at this
    exact this

/-- A case: the key 2 has been changed by the own transaction, 3 by another one; 4 is a new row of another
transaction, not visible; 5 has been removed from the page, and is not past the hikey 6; 7 is. -/
theorem C95_case : rows true false (some 6) [⟨1, some 10, false⟩, ⟨2, some 21, true⟩, ⟨3, none, false⟩, ⟨4, none, false⟩]
      [⟨1, some 10⟩, ⟨2, some 20⟩, ⟨3, some 30⟩, ⟨5, some 50⟩, ⟨7, some 70⟩] =
    [(1, 10), (2, 21), (3, 30), (5, 50)] := by decide +kernel

/-- The failing case: a backward scan of a page with three rows, the last of which the own transaction has changed.
The rows of the historical image come first, in ascending order, and those of the page are returned again. -/
theorem C95_violated : rows false false none [⟨1, some 10, false⟩, ⟨2, some 20, false⟩, ⟨3, some 31, true⟩]
      [⟨1, some 10⟩, ⟨2, some 20⟩, ⟨3, some 30⟩] = [(1, 10), (2, 20), (3, 31), (2, 20), (1, 10)] := by decide +kernel

/-- The other failing case: an iterator in a backward scan returns the rows in ascending order. -/
theorem C95_iter_violated : rows false true none [⟨1, some 10, false⟩, ⟨2, some 20, false⟩] [] = [(1, 10), (2, 20)] := by
  decide +kernel

end Merge

/-! ## C96: no downlink is lost when the shared array grows -/

namespace Grow

/-- C96, in part: whenever the array can be read, it consists of the downlinks which have been added, in order, if
there are not more participants than places at the beginning (16 or more).

What is missing: more participants (`C96_violated`). -/
theorem C96_partial {n cap : Nat} {es : List (Nat × Nat)} {s : St} (hn : n ≤ cap) (hc : 0 < cap)
    (hr : run n (init cap) es = some s) (hq : s.quiet n) : s.array = s.added.map some :=
  inv_array (run_inv es (init cap) s (inv_init hn hc) hr) hq

/-- A case: two participants find the array of two places full at once; the one which comes second finds it grown. -/
theorem C96_case : ∃ s, run 2 (init 2) [(0, 7), (0, 0), (1, 8), (1, 0), (0, 9), (1, 5), (0, 0), (1, 0), (1, 0), (0, 0),
      (1, 0), (1, 0), (0, 0), (0, 0)] = some s ∧
    (decide (s.cap = 4) && decide (s.array = [some 7, some 8, some 5, some 9]) && decide (s.added = [7, 8, 5, 9])) = true :=
  any_run (by decide +kernel)

/-- The run of the failing case. -/
def crowd : List (Nat × Nat) :=
  (List.range 16).flatMap (fun d => [(0, d), (0, d)]) ++ (List.range 17).map (fun w => (w, 100 + w)) ++
  (List.range 17).map (fun w => (w, 0)) ++ (List.range 17).map (fun w => (w, 0)) ++ [(0, 0), (0, 0), (16, 0)]

/-- The failing case: 17 participants find the array of 16 places full at once, the last one with the number 32.
The first one makes a segment of 32 places and adds its downlink; the last one finds 32 places too few for its
number, and copies the array from the segment it is attached to, which is the old one: the downlink is lost. -/
theorem C96_violated : ∃ s, run 17 (init 16) crowd = some s ∧ s.quiet 17 ∧
    s.added[16]? = some 100 ∧ s.array[16]? = some none := by
  obtain ⟨s, h1, h2⟩ := any_run (p := fun s : St => (List.range 17).all (fun w => !(s.pc w).isOver) &&
      decide (s.added[16]? = some 100) && decide (s.array[16]? = some none))
    (x := run 17 (init 16) crowd) (by decide +kernel)
  simp only [Bool.and_eq_true, decide_eq_true_eq, List.all_eq_true, List.mem_range, Bool.not_eq_true'] at h2
  exact ⟨s, h1, h2.1.1, h2.1.2, h2.2⟩

end Grow

end Verif.SeqScan
