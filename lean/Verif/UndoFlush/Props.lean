import Verif.UndoFlush.Inv

/-!
# The flush of the undo log: C55, C58
-/

namespace Verif.UndoFlush

variable {c : Cfg} {n : Nat} {ops : List Op}

/-! ## What holds in calm runs -/

/-- C55 in calm runs.  Missing: the cases of `C55_violated` (a record in the page of the ring
where the eviction stopped) and `C55_violated_clean` (a change in place in the evicted part of
that page). -/
theorem C55_partial (hc : calm c (St.init n) ops) : C55 (run c (St.init n) ops) := by
  have h := (Inv.init (c := c) n).run hc
  intro lo hi hs x h1 h2 h3
  have hk := h.ck
  rw [hs] at hk
  exact (hk.2.2 x h3 h1 h2).2.1

/-- C58 in calm runs.  Missing: the same cases (`C58_violated`, `C58_violated_clean`). -/
theorem C58_partial (hc : calm c (St.init n) ops) : C58 c (run c (St.init n) ops) := by
  have h := ((Inv.init (c := c) n).run hc).log
  intro x h1 h2
  unfold found
  split
  · exact h.fileV x h2 h1 (by assumption)
  · exact h.ringV x h2 (by omega)

/-! ## A case -/

/-- Pages of four locations, a ring of three. -/
def three : Cfg := ⟨4, 3, by decide, by decide⟩

/-- Two records; six locations evicted; a change in the ring; a checkpoint, in the course of which
another record is made, beyond the end of the ring, and locations are changed in file and ring. -/
def life : List Op :=
  [.alloc 5, .finish 0 [1, 2, 3, 4, 5], .alloc 5, .finish 5 [6, 7, 8, 9, 10], .evict 4, .evict 6,
    .write 7 70, .ckRead 0, .alloc 2, .alloc 3, .ckFlush 12, .write 1 20, .ckGo,
    .finish 12 [13, 14, 15], .write 8 90, .ckGo, .write 9 100, .ckGo, .ckGo, .write 2 30, .ckGo,
    .ckGo, .ckGo]

/-- The run is calm and ends with a finished checkpoint; the disk has what was there at the
beginning, or what was changed early enough; readers find everything. -/
theorem life_case :
    calm three (St.init 0) life ∧
      (run three (St.init 0) life).ck = .done 0 10 ∧
      (List.range 10).map (run three (St.init 0) life).disk
        = [1, 20, 3, 4, 5, 6, 7, 70, 90, 10] ∧
      (List.range 10).map (run three (St.init 0) life).seen
        = [[1], [20, 2], [30, 3], [4], [5], [6], [7], [70], [90, 9], [100, 10]] ∧
      (List.range 15).map (found three (run three (St.init 0) life))
        = [1, 20, 30, 4, 5, 6, 7, 70, 90, 100, 0, 0, 13, 14, 15] := by
  decide +kernel

/-! ## What does not hold -/

/-- Pages of four locations, a ring of two. -/
def two : Cfg := ⟨4, 2, by decide, by decide⟩

/-- The eviction stopped at 2, and the ring is full: the last record lies in the same page of the
ring.  The flush covers as many pages as the ring has, and leaves out the last one. -/
def full : List Op :=
  [.alloc 3, .finish 0 [1, 2, 3], .evict 2, .alloc 4, .finish 3 [4, 5, 6, 7], .alloc 1, .alloc 2,
    .finish 8 [9, 10], .ckRead 0, .ckFlush 10] ++ List.replicate 7 .ckGo

/-- The last record is not on the disk. -/
theorem C55_violated : ¬ C55 (run two (St.init 0) full) := by
  intro h
  exact absurd (h 0 10 (by decide +kernel) 8 (by decide) (by decide) (by decide +kernel))
    (by decide +kernel)

/-- The flush cleared its dirty bit: it is evicted as clean, the buffer is dropped. -/
theorem C58_violated :
    ¬ C58 two (run two (St.init 0) (full ++ [.evict 4, .evict 8, .evict 10, .forget 2])) := by
  intro h
  exact absurd (h 8 (by decide +kernel) (by decide +kernel)) (by decide +kernel)

/-- A record is evicted in part; a checkpoint flushes the page and clears its dirty bit; the
evicted part is changed in place; the rest is evicted, as clean. -/
def marked : List Op :=
  [.alloc 4, .finish 0 [1, 2, 3, 4], .evict 2, .ckRead 0, .ckFlush 4] ++ List.replicate 4 .ckGo ++
    [.write 1 20, .evict 4]

/-- The change is lost with the buffer. -/
theorem C58_violated_clean : ¬ C58 two (run two (St.init 0) (marked ++ [.forget 0])) := by
  intro h
  exact absurd (h 1 (by decide +kernel) (by decide +kernel)) (by decide +kernel)

/-- Nor does the next checkpoint write it. -/
theorem C55_violated_clean :
    ¬ C55 (run two (St.init 0) (marked ++ [.ckRead 0, .ckFlush 4] ++ List.replicate 3 .ckGo)) := by
  intro h
  exact absurd (h 0 4 (by decide +kernel) 1 (by decide) (by decide) (by decide +kernel))
    (by decide +kernel)

end Verif.UndoFlush
