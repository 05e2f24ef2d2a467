import Verif.OBuffers.Props

/-!
# C28 fails: writes that leave the buffer clean; reads of a missing file
-/

namespace Verif.OBuffers

theorem during_two {p : Nat} {op : Op} {tr mid : List Ev} {ev : Ev}
    (h : During p op (ev :: .call p op :: tr) mid) :
    mid = ev :: .call p op :: tr ∨ mid = .call p op :: tr := by
  obtain ⟨later, earlier, sofar, h1, h2, h3, -⟩ := h
  match later, h1, h3 with
  | [], h1, _ => exact Or.inl h1.symm
  | [x], h1, _ =>
    injection h1 with _ h1
    exact Or.inr h1.symm
  | x :: y :: l, h1, h3 =>
    injection h1 with _ h1
    injection h1 with h1 _
    exact absurd (by rw [h1]; simp) (h3 op)

/-- A read that took one step of its own and gave another byte than the last one written. -/
theorem stale {first : Nat → Nat → Nat} {p : Nat} {op : Op} {acc : Nat → Nat} {t a : Nat}
    {bs : List Nat} {tr : List Ev}
    (hw : op.write = false) (hs : 0 < op.size) (hv : acc 0 ≠ value first tr op.tag op.off) :
    ¬ C28 first (.ret p op true acc :: .rd t a bs :: .call p op :: tr) := by
  intro h
  obtain ⟨mid, hm, e⟩ := h.1 [] p op acc _ rfl hw 0 hs
  apply hv
  rw [e]
  rcases during_two hm with e | e <;> subst e <;> rfl

/-- Two bytes of a block are written, the second with `mark_clean`; four other blocks are
read; then the first byte is read. -/
def cleanActs : List Act :=
  alone 0 (wrOp 0 1 7 false) 1 ++ alone 0 (wrOp 1 1 8 true) 1 ++
  alone 0 (rdOp (1 * 8192) 1 false) 1 ++ alone 0 (rdOp (2 * 8192) 1 false) 1 ++
  alone 0 (rdOp (3 * 8192) 1 false) 1 ++ alone 0 (rdOp (4 * 8192) 1 false) 1 ++
  alone 0 (rdOp (5 * 8192) 1 false) 1 ++ alone 0 (rdOp (6 * 8192) 1 false) 1

/-- The state before the last read. -/
def cleanSt : St := run cfg1 (init (fun _ _ => 0) (fun _ _ => true) 1) cleanActs

set_option maxRecDepth 100000 in
theorem clean_read : lastRet (run cfg1 cleanSt (alone 0 (rdOp 0 1 false) 1)).trace =
    some (true, 0, [0]) := by
  decide

set_option maxRecDepth 100000 in
theorem clean_value : value (fun _ _ => 0) cleanSt.trace 0 0 = 7 := by
  decide

set_option maxRecDepth 100000 in
/-- C28 is false: a write that leaves the buffer clean (`src/utils/o_buffers.c:393`) makes
the cache forget that other bytes of the block are not on disk yet. -/
theorem C28_violated : ¬ ∀ (c : Cfg) (disk : Key → Nat → Nat) (fex : Nat → Nat → Bool) (n : Nat)
    (as : List Act), C28 (firstOf c disk) (run c (init disk fex n) as).trace := by
  intro h
  have h1 := h cfg1 (fun _ _ => 0) (fun _ _ => true) 1 (cleanActs ++ alone 0 (rdOp 0 1 false) 1)
  have e : run cfg1 (init (fun _ _ => 0) (fun _ _ => true) 1) (cleanActs ++ alone 0 (rdOp 0 1 false) 1)
      = run cfg1 cleanSt (alone 0 (rdOp 0 1 false) 1) := by
    unfold run cleanSt; rw [List.foldl_append]; rfl
  rw [e] at h1
  have h2 := clean_read
  have h3 : ∃ acc t a bs, (run cfg1 cleanSt (alone 0 (rdOp 0 1 false) 1)).trace =
      .ret 0 (rdOp 0 1 false) true acc :: .rd t a bs :: .call 0 (rdOp 0 1 false) :: cleanSt.trace :=
    ⟨_, _, _, _, rfl⟩
  obtain ⟨acc, t, a, bs, h4⟩ := h3
  rw [h4] at h1 h2
  refine stale rfl (by decide) ?_ h1
  show acc 0 ≠ value (fun _ _ => 0) cleanSt.trace 0 0
  rw [clean_value]
  simp only [lastRet, slice, rdOp, List.range, List.range.loop, List.map] at h2
  injection h2 with h2
  injection h2 with _ h2
  injection h2 with _ h2
  injection h2 with h2
  intro h5
  have : acc 0 = 0 := h2
  omega

/-- Process 1 reads a block whose file does not exist, tolerating that; it has taken a
buffer for the block.  Process 0 finds the buffer and waits for it, to write into the block.
Process 1 finds that there is no file and gives the buffer up; process 0 writes into it
and returns. -/
def missActs : List Act :=
  [.call 1 (rdOp 0 1 true), .run 1, .run 1, .run 1, .call 0 (wrOp 0 1 7 false), .run 0, .run 1, .run 0]

/-- The state before the last read. -/
def missSt : St := run cfg1 (init (fun _ _ => 0) (fun _ _ => false) 2) missActs

/-- Process 1 was told that there is no file, process 0 that its byte is written. -/
theorem miss_rets : ((run cfg1 (init (fun _ _ => 0) (fun _ _ => false) 2) missActs).trace.filterMap
    fun e => match e with | .ret p _ ok _ => some (p, ok) | _ => none) = [(0, true), (1, false)] := by
  decide

set_option maxRecDepth 100000 in
theorem miss_read : lastRet (run cfg1 missSt (alone 0 (rdOp 0 1 false) 1)).trace =
    some (true, 0, [0]) := by
  decide

theorem miss_value : value (fun _ _ => 0) missSt.trace 0 0 = 7 := by
  decide

set_option maxRecDepth 100000 in
/-- C28 is false even without `mark_clean`: a process that waited for a buffer does not check
that the buffer still holds its block (`src/utils/o_buffers.c:249-253`), and what it writes
there is lost. -/
theorem C28_violated_missing : ¬ ∀ (c : Cfg) (disk : Key → Nat → Nat) (fex : Nat → Nat → Bool) (n : Nat)
    (as : List Act), (∀ p op, Act.call p op ∈ as → op.markClean = false) →
      C28 (firstOf c disk) (run c (init disk fex n) as).trace := by
  intro h
  have h1 := h cfg1 (fun _ _ => 0) (fun _ _ => false) 2 (missActs ++ alone 0 (rdOp 0 1 false) 1) (by
    intro p op hm
    simp only [missActs, alone, List.mem_append, List.mem_cons, List.mem_replicate, Act.call.injEq,
      reduceCtorEq, and_false, or_false, false_or, List.not_mem_nil] at hm
    rcases hm with (⟨_, rfl⟩ | ⟨_, rfl⟩) | ⟨_, rfl⟩ <;> rfl)
  have e : run cfg1 (init (fun _ _ => 0) (fun _ _ => false) 2) (missActs ++ alone 0 (rdOp 0 1 false) 1)
      = run cfg1 missSt (alone 0 (rdOp 0 1 false) 1) := by
    unfold run missSt; rw [List.foldl_append]; rfl
  rw [e] at h1
  have h2 := miss_read
  have h3 : ∃ acc t a bs, (run cfg1 missSt (alone 0 (rdOp 0 1 false) 1)).trace =
      .ret 0 (rdOp 0 1 false) true acc :: .rd t a bs :: .call 0 (rdOp 0 1 false) :: missSt.trace :=
    ⟨_, _, _, _, rfl⟩
  obtain ⟨acc, t, a, bs, h4⟩ := h3
  rw [h4] at h1 h2
  refine stale rfl (by decide) ?_ h1
  show acc 0 ≠ value (fun _ _ => 0) missSt.trace 0 0
  rw [miss_value]
  simp only [lastRet, slice, rdOp, List.range, List.range.loop, List.map] at h2
  injection h2 with h2
  injection h2 with _ h2
  injection h2 with _ h2
  injection h2 with h2
  intro h5
  have : acc 0 = 0 := h2
  omega

end Verif.OBuffers
