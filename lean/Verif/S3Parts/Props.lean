import Verif.S3Parts.CodecProofs
import Verif.S3Parts.Proofs
import Verif.S3Parts.IoProofs
import Verif.S3Parts.DirtyProofs
import Verif.S3Parts.Unlink

/-! # The parts of data files in S3 mode: properties C97 to C104 -/

namespace Verif.S3Parts

theorem any_run {α : Type} {x : Option α} {p : α → Bool} (h : x.any p = true) : ∃ s, x = some s ∧ p s = true := by
  cases x with
  | none => cases h
  | some a => exact ⟨a, rfl, h⟩

/-! ## C97 -/

/-- C97.  Each change of the word of a part is the change of the fields it is meant to be, and leaves the others alone:
locks 18 bits, status 3, three flags, usage 7.  A lock needs room in the 18 bits (each process holds at most one
lock), an unlock needs a lock. -/
theorem C97_word (v : BitVec 32) (c : Chg) (hv : valid v) (hl : c = .lock → (getLocks v).toNat + 1 < 2 ^ 18)
    (hu : ∀ d, c = .unlock d → 0 < (getLocks v).toNat) :
    decode (word v c) = (decode v).change c ∧ valid (word v c) :=
  ⟨decode_word v c hl hu, valid_word v c hv hl hu⟩

/-- A word with three locks, Loaded, dirty and scheduled, usage 127. -/
theorem C97_case : valid 0xFEA80003#32 ∧ decode 0xFEA80003#32 = ⟨3, .loaded, true, false, true, 127⟩ ∧
    decode (word 0xFEA80003#32 .lock) = ⟨4, .loaded, true, false, true, 127⟩ ∧
    decode (word 0xFEA80003#32 .writing) = ⟨3, .loaded, false, true, false, 127⟩ ∧
    decode (word 0xFEA80003#32 .evict) = ⟨3, .evicting, true, false, true, 127⟩ := by
  refine ⟨by unfold valid; decide +kernel, ?_, ?_, ?_, ?_⟩ <;> decide +kernel

/-! ## C98, C99 -/

/-- `fine`, computed. -/
def fineB (n : Nat) (s : St) (p : Nat) (a : Act) : Bool :=
  (a != .die || (s.pc p != .rdone && s.pc p != .wdone)) &&
  (a != .go || match s.pc p with
    | .wr b => (List.range n).all (fun q => q == p || !(s.pc q).isUp) &&
        (!b || (s.qw == 0 && (List.range n).all (fun q => !(s.pc q).isTask)))
    | _ => true) &&
  (a != .evict || !s.hd.evictable || s.cur != 0)

theorem fine_of {n : Nat} {s : St} {p : Nat} {a : Act} (h : fineB n s p a = true) : fine n s p a := by
  unfold fineB at h
  simp only [Bool.and_eq_true] at h
  obtain ⟨⟨h1, h2⟩, h3⟩ := h
  refine ⟨?_, ?_, ?_⟩
  · intro ha
    simp only [ha, bne_self_eq_false, Bool.false_or, Bool.and_eq_true, bne_iff_ne] at h1
    exact h1
  · intro ha b hb
    rw [ha, hb] at h2
    simp only [bne_self_eq_false, Bool.false_or, Bool.and_eq_true, List.all_eq_true, List.mem_range, Bool.or_eq_true,
      Bool.not_eq_true', beq_iff_eq] at h2
    refine ⟨fun q hq hne => ?_, fun hbt => ?_⟩
    · rcases h2.1 q hq with h4 | h4
      · exact absurd h4 hne
      · exact h4
    · rcases h2.2 with h4 | h4
      · rw [hbt] at h4; cases h4
      · exact h4
  · intro ha he
    simp only [ha, bne_self_eq_false, Bool.false_or, Bool.or_eq_true, Bool.not_eq_true', bne_iff_ne] at h3
    rcases h3 with h4 | h4
    · rw [he] at h4; cases h4
    · exact h4

/-- `allFine`, computed. -/
def allFineB (n : Nat) (s : St) : List (Nat × Act) → Bool
  | [] => true
  | (p, a) :: es => fineB n s p a && (step s p a).all (fun s' => allFineB n s' es)

theorem allFine_of {n : Nat} : ∀ {es : List (Nat × Act)} {s : St}, allFineB n s es = true → allFine n s es := by
  intro es
  induction es with
  | nil => intro s _; trivial
  | cons e es ih =>
    obtain ⟨p, a⟩ := e
    intro s h
    simp only [allFineB, Bool.and_eq_true] at h
    refine ⟨fine_of h.1, ?_⟩
    intro s' hs
    have h2 := h.2
    rw [hs] at h2
    exact ih (by exact h2)

/-- Nobody has the part locked and has written to it. -/
def nobodyWrote (n : Nat) (s : St) : Prop := ∀ p, p < n → s.pc p ≠ .held true

/-- C98, in part.  In every run of any number of processes which meets none of the failures of `fine`: the number of
locks in the header is that of the processes which have the part locked; while one has, the part is Loaded, and no
other process fills it or overwrites it with zeros; the assertions on the status and the locks hold
(src/s3/headers.c:798, 818-819, 898-899), and so do those on a task which a worker has taken from the queue (874-875).
Missing: the runs which are not `fine`, see `C98_violated`. -/
theorem C98_locks_partial {n : Nat} {es : List (Nat × Act)} {s : St} (hf : allFine n init es)
    (h : run n init es = some s) :
    s.hd.locks = count (fun p => (s.pc p).isHeld) n ∧
    (∀ p, p < n → (s.pc p).isHeld = true → s.hd.st = .loaded ∧ ∀ q, q < n →
      (∀ c, s.pc q ≠ .got c) ∧ s.pc q ≠ .fill ∧ s.pc q ≠ .ev ∧ s.pc q ≠ .zero) ∧
    (∀ p, p < n → s.pc p = .claim → s.hd.st = .loading) ∧
    (∀ p, p < n → s.pc p = .zero → s.hd.st = .evicting ∧ s.hd.locks = 0) ∧
    (∀ p, p < n → s.pc p = .wr false → s.hd.dirty = true ∧ s.hd.sched = true) := by
  have hi := run_inv es init s (inv_init n) hf h
  have hh : ∀ p, p < n → (s.pc p).isHeld = true → ∀ q, q < n → (s.pc q).isRd = false ∧ (s.pc q).isEv = false := by
    intro p hp hph q hq
    have h1 := hi.held p hp hph
    constructor
    · cases hr : (s.pc q).isRd with
      | false => rfl
      | true => have := hi.rtok q hq hr; rw [h1] at this; cases this
    · cases hr : (s.pc q).isEv with
      | false => rfl
      | true => have := hi.evs q hq hr; rw [h1] at this; cases this
  refine ⟨hi.locks, ?_, ?_, ?_, ?_⟩
  · intro p hp hph
    refine ⟨hi.held p hp hph, ?_⟩
    intro q hq
    have ⟨h1, h2⟩ := hh p hp hph q hq
    refine ⟨?_, ?_, ?_, ?_⟩
    · intro c hc; rw [hc] at h1; cases h1
    · intro hc; rw [hc] at h1; cases h1
    · intro hc; rw [hc] at h2; cases h2
    · intro hc; rw [hc] at h2; cases h2
  · intro p hp hpc
    exact hi.rtok p hp (by rw [hpc]; rfl)
  · intro p hp hpc
    refine ⟨hi.evs p hp (by rw [hpc]; rfl), ?_⟩
    rw [hi.locks]
    apply count_none
    intro q hq
    cases hr : (s.pc q).isHeld with
    | false => rfl
    | true => have := (hh q hq hr p hp).2; rw [hpc] at this; cases this
  · intro p hp hpc
    have h1 := hi.wt p hp (by rw [hpc]; rfl)
    exact ⟨hi.sd h1, h1⟩

/-- C99, in part.  In the same runs: who has the part locked sees in the local file what was written last, however often
the part has been uploaded, evicted and downloaded in between; and when the part is neither dirty nor being uploaded
and nobody has written to it under a lock, S3 has what was written last too.
Missing: the runs which are not `fine`, see the `C99_violated` theorems. -/
theorem C99_contents_partial {n : Nat} {es : List (Nat × Act)} {s : St} (hf : allFine n init es)
    (h : run n init es = some s) :
    (∀ p, p < n → (s.pc p).isHeld = true → s.loc = s.cur) ∧
    (s.hd.dirty = false → s.hd.writing = false → nobodyWrote n s → s.cur ≠ 0 → s.s3 = some s.cur) := by
  have hi := run_inv es init s (inv_init n) hf h
  refine ⟨fun p hp hph => hi.d1 (hi.held p hp hph), ?_⟩
  intro h1 h2 h3 h4
  by_cases hl : s.hd.st = .loaded
  · rcases hi.d3 hl h1 h2 (by exact h3) with h5 | h5
    · exact absurd h5 h4
    · exact h5
  · exact hi.d2 hl

/-- A part is written, uploaded by a worker which fails once, evicted, asked for and downloaded by a worker which is
restarted once, then locked again. -/
def life : List (Nat × Act) :=
  [(0, .lock), (0, .write 5), (0, .unlock), (0, .sched), (0, .put),
   (1, .pickW), (1, .go), (1, .go), (1, .err), (1, .go), (1, .go), (1, .go), (1, .go), (1, .go),
   (3, .evict), (3, .evict), (3, .go), (3, .go),
   (0, .lock), (0, .ask),
   (2, .pickR), (2, .go), (2, .go), (2, .die), (2, .go), (2, .go), (2, .go), (2, .go), (2, .go),
   (0, .lock)]

/-- The hypotheses of the two theorems are met by it. -/
theorem C99_case : ∃ s, allFine 4 init life ∧ run 4 init life = some s ∧ s.pc 0 = .held false ∧ s.loc = 6 ∧ s.cur = 6 ∧
    s.s3 = some 6 ∧ s.hd.locks = 1 := by
  have h : (run 4 init life).any (fun s => s.pc 0 == .held false && s.loc == 6 && s.cur == 6 && s.s3 == some 6 &&
    s.hd.locks == 1) = true := by decide +kernel
  obtain ⟨s, h1, h2⟩ := any_run h
  simp only [Bool.and_eq_true, beq_iff_eq] at h2
  obtain ⟨⟨⟨⟨a, b⟩, c⟩, d⟩, e⟩ := h2
  exact ⟨s, allFine_of (by decide +kernel), h1, a, b, c, d, e⟩

/-- Written, uploaded, evicted, downloaded up to the mark; the task is not erased yet. -/
def uptoMark : List (Nat × Act) :=
  [(0, .lock), (0, .write 5), (0, .unlock), (0, .sched), (0, .put),
   (1, .pickW), (1, .go), (1, .go), (1, .go), (1, .go), (1, .go),
   (3, .evict), (3, .evict), (3, .go), (3, .go), (0, .lock), (0, .ask),
   (1, .pickR), (1, .go), (1, .go), (1, .go), (1, .go)]

/-- C98 fails: a worker which is restarted after its mark downloads the part once more and serves the request of
somebody else for it; the task of that request is still in the queue, and the worker which takes it overwrites the
part while it is locked. -/
theorem C98_violated : ∃ es s, run 4 init es = some s ∧ s.pc 0 = .held true ∧ s.pc 2 = .fill ∧ s.loc ≠ s.cur := by
  have h : (run 4 init (uptoMark ++ [(1, .die), (3, .evict), (3, .evict), (3, .go), (3, .go), (0, .lock), (0, .ask),
      (1, .go), (1, .go), (1, .go), (1, .go), (1, .go), (0, .lock), (2, .pickR), (2, .go), (0, .write 8), (2, .go)])).any
      (fun s => s.pc 0 == .held true && s.pc 2 == .fill && s.loc != s.cur) = true := by decide +kernel
  obtain ⟨s, h1, h2⟩ := any_run h
  simp only [Bool.and_eq_true, beq_iff_eq, bne_iff_ne] at h2
  exact ⟨_, s, h1, h2.1.1, h2.1.2, h2.2⟩

/-- C99 fails: a worker which is restarted after its mark downloads the part again, over what has been written to it
meanwhile (the replay of src/s3/worker.c:371-391 looks at the status after the download only). -/
theorem C99_violated_replayed_download : ∃ es s, run 4 init es = some s ∧ s.pc 0 = .held false ∧ s.loc = 6 ∧ s.cur = 9 := by
  have h : (run 4 init (uptoMark ++ [(0, .lock), (0, .write 8), (0, .unlock), (1, .die), (1, .go), (1, .go), (0, .lock)])).any
      (fun s => s.pc 0 == .held false && s.loc == 6 && s.cur == 9) = true := by decide +kernel
  obtain ⟨s, h1, h2⟩ := any_run h
  simp only [Bool.and_eq_true, beq_iff_eq] at h2
  exact ⟨_, s, h1, h2.1.1, h2.1.2, h2.2⟩

/-- C99 fails: of two uploads of a part the first to end takes the mark of both away; the part is evicted, and the other
upload reads zeros and puts them. -/
theorem C99_violated_two_uploads : ∃ es s, run 4 init es = some s ∧ s.pc 0 = .held false ∧ s.loc = 0 ∧ s.cur = 8 := by
  have h : (run 4 init [(0, .lock), (0, .write 5), (0, .unlock), (0, .sched), (0, .put), (1, .pickW), (1, .go),
      (0, .lock), (0, .write 7), (0, .unlock), (0, .sched), (0, .put), (2, .pickW), (2, .go),
      (1, .go), (1, .go), (1, .go), (1, .go), (3, .evict), (3, .evict), (3, .evict), (3, .go), (3, .go),
      (2, .go), (2, .go), (2, .go), (2, .go), (0, .lock), (0, .ask),
      (1, .pickR), (1, .go), (1, .go), (1, .go), (1, .go), (1, .go), (0, .lock)]).any
      (fun s => s.pc 0 == .held false && s.loc == 0 && s.cur == 8) = true := by decide +kernel
  obtain ⟨s, h1, h2⟩ := any_run h
  simp only [Bool.and_eq_true, beq_iff_eq] at h2
  exact ⟨_, s, h1, h2.1.1, h2.1.2, h2.2⟩

/-- C99 fails: of two uploads of a part the older one is put last; S3 has the older contents, and the part is clean. -/
theorem C99_violated_older_last : ∃ es s, run 4 init es = some s ∧ s.s3 = some 6 ∧ s.cur = 8 ∧ s.hd.dirty = false ∧
    s.hd.writing = false ∧ s.qw = 0 ∧ ∀ p, p < 4 → s.pc p = .idle := by
  have h : (run 4 init [(0, .lock), (0, .write 5), (0, .unlock), (0, .sched), (0, .put), (1, .pickW), (1, .go), (1, .go),
      (0, .lock), (0, .write 7), (0, .unlock), (0, .sched), (0, .put), (2, .pickW), (2, .go), (2, .go), (2, .go),
      (2, .go), (2, .go), (1, .go), (1, .go), (1, .go)]).any
      (fun s => s.s3 == some 6 && s.cur == 8 && !s.hd.dirty && !s.hd.writing && s.qw == 0 &&
        (List.range 4).all (fun p => s.pc p == .idle)) = true := by decide +kernel
  obtain ⟨s, h1, h2⟩ := any_run h
  simp only [Bool.and_eq_true, beq_iff_eq, Bool.not_eq_true', List.all_eq_true, List.mem_range] at h2
  obtain ⟨⟨⟨⟨⟨a, b⟩, c⟩, d⟩, e⟩, f⟩ := h2
  exact ⟨_, s, h1, a, b, c, d, e, f⟩

/-- C99 fails: a worker which is restarted after its upload has been marked uploads the part again; if it has been
evicted meanwhile, zeros. -/
theorem C99_violated_replayed_upload : ∃ es s, run 4 init es = some s ∧ s.pc 0 = .held false ∧ s.loc = 0 ∧ s.cur = 6 := by
  have h : (run 4 init [(0, .lock), (0, .write 5), (0, .unlock), (0, .sched), (0, .put),
      (1, .pickW), (1, .go), (1, .go), (1, .go), (1, .go), (3, .evict), (3, .evict), (3, .go), (3, .go),
      (1, .die), (1, .go), (1, .go), (1, .go), (1, .go), (1, .go), (0, .lock), (0, .ask),
      (1, .pickR), (1, .go), (1, .go), (1, .go), (1, .go), (1, .go), (0, .lock)]).any
      (fun s => s.pc 0 == .held false && s.loc == 0 && s.cur == 6) = true := by decide +kernel
  obtain ⟨s, h1, h2⟩ := any_run h
  simp only [Bool.and_eq_true, beq_iff_eq] at h2
  exact ⟨_, s, h1, h2.1.1, h2.1.2, h2.2⟩

/-- A worker which asks for an object which is not there goes on doing so. -/
theorem stuck {n p : Nat} {s : St} (hp : p < n) (h1 : s.pc p = .rd) (h2 : s.s3 = none) (k : Nat) :
    run n s (List.replicate k (p, .go)) = some s := by
  induction k with
  | zero => rfl
  | succ k ih =>
    have hst : step s p .go = some s := by simp only [step, go, h1, h2]
    rw [List.replicate_succ, run, if_pos hp, hst]
    exact ih

/-- C99 fails: a part to which nothing has been written is evicted like any other; S3 has no object for it, so the first
process which wants to write to it waits for a download which never ends. -/
theorem C99_violated_empty_part : ∃ es s, run 4 init es = some s ∧ s.hd.st = .loading ∧ s.pc 1 = .rd ∧ s.qr = 0 ∧
    (∀ k, run 4 s (List.replicate k (1, .go)) = some s) ∧ run 4 s [(0, .lock)] = some s := by
  have h : (run 4 init [(3, .evict), (3, .go), (3, .go), (0, .lock), (0, .ask), (1, .pickR)]).any
      (fun s => s.hd.st == .loading && s.pc 1 == .rd && s.qr == 0 && s.s3 == none && s.pc 0 == .idle) = true := by
    decide +kernel
  obtain ⟨s, h1, h2⟩ := any_run h
  simp only [Bool.and_eq_true, beq_iff_eq] at h2
  obtain ⟨⟨⟨⟨a, b⟩, c⟩, d⟩, e⟩ := h2
  refine ⟨_, s, h1, a, b, c, fun k => stuck (by decide) b d k, ?_⟩
  have hst : step s 0 .lock = some s := by simp only [step, e, a, if_true]
  simp only [run, hst]
  rfl

namespace Io

/-! ## C100 -/

/-- C100, in part.  The eviction of a part which has data overwrites with zeros exactly the bytes of this part in the
file; `d` is the number of bytes after the header.
Missing: parts which the eviction goes through though they have no data, see the two `C100_violated` theorems. -/
theorem C100_evict_partial {d i : Nat} (hd : d ≤ seg) (h : i * part < d) :
    ∃ off len, zeroes (blk + d) i = .bytes off len ∧
      ∀ x, (off ≤ x ∧ x < off + len) ↔ (ofPart i x ∧ x < blk + d) :=
  zeroes_part hd h

/-- C100 for the start of the server: exactly the bytes of the part in the file, whatever the size. -/
theorem C100_start {fs i x : Nat} :
    (∃ r, startZeroes fs i = some r ∧ r.1 ≤ x ∧ x < r.1 + r.2) ↔ (ofPart i x ∧ x < fs) :=
  start_part

/-- The second part of a file with one and a half. -/
theorem C100_case : (1 * part < part + part / 2 ∧ part + part / 2 ≤ seg) ∧
    zeroes (blk + (part + part / 2)) 1 = .bytes 1056768 524288 := by decide +kernel

/-- C100 fails: for a file with one part less one block of 512 bytes the eviction goes through part 1 too, and the length
it computes is negative. -/
theorem C100_violated_length : ∃ d i, d ≤ seg ∧ d % 512 = 0 ∧ i < numParts (blk + d) ∧ zeroes (blk + d) i = .runaway :=
  ⟨part - 512, 1, by decide +kernel, by decide +kernel, by decide +kernel, by decide +kernel⟩

/-- C100 fails: for a full segment the eviction goes through one part more than the header has room for. -/
theorem C100_violated_index : ∃ i, i < numParts (blk + seg) ∧ zeroes (blk + seg) i = .outside :=
  ⟨1024, by decide +kernel, by decide +kernel⟩

/-! ## C101 -/

/-- C101, first half.  The pieces of a read or write follow each other without gaps, are together the range, and
each is within one part (or segment). -/
theorem C101_pieces {g : Nat} (hg : 0 < g) (off amount : Nat) :
    Tiles off amount (pieces g amount off amount).1 ∧
    ∀ x ∈ (pieces g amount off amount).1, (x.1 + x.2 - 1) / g = x.1 / g :=
  pieces_tile hg amount off amount (Nat.le_refl _)

/-- C101, second half, in part.  Of the parts which a write has touched the first is given to the list of parts to upload;
so all are if the write is within one part; if it is not, the second is just when more bytes went to it than to the
first.  Missing: the other case, see `C101_violated`. -/
theorem C101_scheduled_partial {off amount k : Nat} (hs : amount ≤ part) (ht : touches off amount k)
    (hin : off % part + amount ≤ part ∨ part - off % part < amount - (part - off % part)) :
    k ∈ scheduled off amount := by
  by_cases hc : off % part + amount ≤ part
  · rw [touches_inside hc ht]
    exact sched_first off amount
  · have h1 : off % part + amount > part := by omega
    have h2 : k = off / part ∨ k = off / part + 1 := by
      obtain ⟨x, a, b, c⟩ := ht
      rw [part_val] at *
      omega
    rcases h2 with h2 | h2
    · rw [h2]; exact sched_first off amount
    · rw [h2, sched_second h1 hs]
      omega

/-- A compressed page of nine blocks, two of which are in the first part. -/
theorem C101_case : 9 * 512 ≤ part ∧ touches (part - 1024) (9 * 512) 1 ∧
    part - (part - 1024) % part < 9 * 512 - (part - (part - 1024) % part) ∧
    scheduled (part - 1024) (9 * 512) = [0, 1] ∧
    (pieces part (9 * 512) (part - 1024) (9 * 512)).1 = [(1047552, 1024), (1048576, 3584)] :=
  ⟨by decide +kernel, ⟨part, by decide +kernel, by decide +kernel, by decide +kernel⟩, by decide +kernel, by decide +kernel,
    by decide +kernel⟩

/-- C101 fails: a compressed page of nine blocks, eight of which are in the first part; the second part is not given to
the list, as `amount` is what was left in the loop. -/
theorem C101_violated : ∃ off amount k, off % 512 = 0 ∧ amount % 512 = 0 ∧ amount ≤ 8192 ∧ touches off amount k ∧
    k ∉ scheduled off amount :=
  ⟨part - 4096, 4608, 1, by decide +kernel, by decide +kernel, by decide +kernel,
    ⟨part, by decide +kernel, by decide +kernel, by decide +kernel⟩, by decide +kernel⟩

/-! ## C103 -/

/-- C103.  The parts requested for a page are those which have a byte of it. -/
theorem C103_loads (off size : Nat) (h : 0 < size) (k : Nat) : k ∈ loads size off size ↔ touches off size k :=
  loads_iff size off size h (Nat.le_refl _) k

/-- C103.  The parts counted as loaded while a file grows are those it has, if no extent is longer than a part. -/
theorem C103_counted {t : Nat} (ht : 0 < t) (ls : List Nat) (h : ∀ l ∈ ls, l ≤ t) :
    (countAll t 0 ls).1 = (ls.sum + t - 1) / t := by
  have ⟨_, h2⟩ := countAll_eq ht ls 0 h
  rw [Nat.zero_add, Nat.zero_add] at h2
  have h3 : (t - 1) / t = 0 := Nat.div_eq_of_lt (by omega)
  omega

/-- A page across two parts; extents of 1, 9 and 16 blocks with 16 blocks to a part. -/
theorem C103_case : loads 4608 (part - 4096) 4608 = [0, 1] ∧ loads 8192 (part - 8192) 8192 = [0] ∧
    (countAll 16 0 [1, 9, 16]).1 = 2 := by decide +kernel

end Io

namespace Dirty

/-! ## C102 -/

/-- C102, in part.  If the processes go through the two functions one after the other: when none is inside, a part written
since its upload was last scheduled is in the list; and when a flush has gone through the list, there is no such
part.  Missing: processes which are inside at the same time, see `C102_violated`. -/
theorem C102_list_partial {n : Nat} (hn : 0 < n) {es : List (Nat × DAct)} {s : DSt} (ha : apart n dinit es = true)
    (h : drun n dinit es = some s) :
    ((∀ q, q < n → s.pc q = .idle) → ∀ y, s.pend y = true → ∃ i, i < slotsNum ∧ s.slot i = some y) ∧
    (∀ p, p < n → s.pc p = .fl slotsNum → ∀ y, s.pend y = false) := by
  have hg := drun_inv es dinit s (ginv_init hn) ha h
  exact ⟨fun hidle y hy => ginv_idle hg hidle hy, fun p hp hf y => ginv_flushed hg hp hf y⟩

/-- The steps of one write, and of a flush. -/
def wr (p e k : Nat) : List (Nat × DAct) := (p, .wrote e) :: List.replicate (2 * k) (p, .go)

/-- Six writes by two processes to five parts: the fifth part pushes out the first, the sixth write finds its part in the
list; then a flush. -/
def six : List (Nat × DAct) := wr 0 10 1 ++ wr 1 11 2 ++ wr 0 12 3 ++ wr 1 13 4 ++ wr 0 14 4 ++ wr 1 12 3

theorem C102_case : ∃ s t, apart 2 dinit six = true ∧ drun 2 dinit six = some s ∧ s.slot 0 = some 12 ∧
    s.slot 1 = some 14 ∧ s.slot 2 = some 13 ∧ s.slot 3 = some 11 ∧ s.pend 10 = false ∧ s.pend 11 = true ∧
    apart 2 dinit (six ++ (0, .flush) :: List.replicate 8 (0, .go)) = true ∧
    drun 2 dinit (six ++ (0, .flush) :: List.replicate 8 (0, .go)) = some t ∧ t.pc 0 = .fl slotsNum := by
  have h : (drun 2 dinit six).any (fun s => s.slot 0 == some 12 && s.slot 1 == some 14 && s.slot 2 == some 13 &&
    s.slot 3 == some 11 && !s.pend 10 && s.pend 11) = true := by decide +kernel
  have h' : (drun 2 dinit (six ++ (0, .flush) :: List.replicate 8 (0, .go))).any (fun s => s.pc 0 == .fl slotsNum) = true := by
    decide +kernel
  obtain ⟨s, h1, h2⟩ := any_run h
  obtain ⟨t, h3, h4⟩ := any_run h'
  simp only [Bool.and_eq_true, beq_iff_eq, Bool.not_eq_true'] at h2 h4
  obtain ⟨⟨⟨⟨⟨a, b⟩, c⟩, d⟩, e⟩, f⟩ := h2
  exact ⟨s, t, by decide +kernel, h1, a, b, c, d, e, f, by decide +kernel, h3, h4⟩

/-- C102 fails: two processes read the same slot before either writes it; one of the two parts is lost, and no flush
finds it. -/
theorem C102_violated : ∃ es s, drun 2 dinit es = some s ∧ s.pc 0 = .fl slotsNum ∧ s.pc 1 = .idle ∧ s.pend 10 = true := by
  have h : (drun 2 dinit ([(0, .wrote 10), (1, .wrote 11), (0, .go), (1, .go), (0, .go), (1, .go), (0, .flush)] ++
      List.replicate 8 (0, .go))).any (fun s => s.pc 0 == .fl slotsNum && s.pc 1 == .idle && s.pend 10) = true := by
    decide +kernel
  obtain ⟨s, h1, h2⟩ := any_run h
  simp only [Bool.and_eq_true, beq_iff_eq] at h2
  exact ⟨_, s, h1, h2.1.1, h2.1.2, h2.2⟩

end Dirty

namespace Unlink

open Verif.S3Parts.Io

/-! ## C104 -/

theorem minLoaded_le (hd : Nat → Part) : ∀ (n i : Nat), i < n → (hd i).st = .loaded →
    ∃ m, minLoaded hd n = some m ∧ m ≤ i := by
  intro n
  induction n with
  | zero => intro i h; omega
  | succ n ih =>
    intro i h hl
    by_cases hi : i < n
    · obtain ⟨m, h1, h2⟩ := ih i hi hl
      exact ⟨m, by rw [minLoaded, h1], h2⟩
    · have hin : i = n := by omega
      subst hin
      cases hm : minLoaded hd i with
      | none => exact ⟨i, by rw [minLoaded, hm]; simp [hl], Nat.le_refl _⟩
      | some m =>
        refine ⟨m, by rw [minLoaded, hm], ?_⟩
        apply Nat.le_of_lt
        clear ih h hi hl
        revert hm
        generalize i = k
        induction k with
        | zero => intro hm; cases hm
        | succ k ihk =>
          intro hm
          rw [minLoaded] at hm
          cases hk : minLoaded hd k with
          | some x =>
            rw [hk] at hm
            injection hm with hm
            subst hm
            exact Nat.lt_succ_of_lt (ihk hk)
          | none =>
            rw [hk] at hm
            dsimp only at hm
            split at hm
            · injection hm with hm; omega
            · cases hm

/-- C104, first half.  A file is not removed while the data of one of its parts may be in it only: while a part with data
is Loaded, or a part is being loaded or evicted, or is locked. -/
theorem C104_kept (f : File) (i : Nat) (hi : i < numValues)
    (h : ((f.hd i).st = .loaded ∧ i * part + blk < f.size) ∨ (f.hd i).st = .loading ∨ (f.hd i).st = .evicting ∨
      0 < (f.hd i).locks) : check f = f := by
  have hk : keeps f = true := by
    unfold keeps
    rw [Bool.or_eq_true]
    rcases h with ⟨h1, h2⟩ | h
    · right
      obtain ⟨m, h3, h4⟩ := minLoaded_le f.hd numValues i hi h1
      rw [h3]
      dsimp only
      rw [decide_eq_true_iff]
      have : m * part ≤ i * part := Nat.mul_le_mul_right _ h4
      omega
    · left
      rw [List.any_eq_true]
      refine ⟨i, List.mem_range.2 hi, ?_⟩
      unfold busy
      rcases h with h | h | h <;> simp [h]
  unfold check
  rw [if_pos hk]

/-- C104, second half, in part.  For a file of a finished checkpoint: after the check no part with data counts as local
which did not before, so each is still fetched from S3.
Missing: files of a checkpoint which is not finished, see `C104_violated`. -/
theorem C104_header_partial {chkp last : Nat} (hc : chkp ≤ last) (f : File) (hf : f.there = true) (i : Nat)
    (h : (header chkp last (check f) i).st = .loaded) : (f.hd i).st = .loaded := by
  unfold check at h
  split at h
  · unfold header at h
    rw [if_pos hf] at h
    exact h
  · unfold header fresh at h
    rw [if_neg (by simp), if_pos hc] at h
    cases h

/-- A file with two parts with data, both evicted. -/
def gone2 : File := ⟨true, blk + 2 * part - 512, fun i => if i < 2 then ⟨0, .notLoaded, false, false, false, 0⟩ else
  if i < 3 then ⟨0, .notLoaded, false, false, false, 0⟩ else ⟨0, .loaded, false, false, false, 0⟩⟩

/-- One part of it loaded. -/
def half2 : File := { gone2 with hd := fun i => if i = 1 then ⟨0, .loaded, false, false, false, 1⟩ else gone2.hd i }

theorem C104_case : keeps gone2 = false ∧ (header 5 7 (check gone2) 0).st = .notLoaded ∧ keeps half2 = true ∧
    (half2.hd 1).st = .loaded ∧ 1 * part + blk < half2.size := by decide +kernel

/-- C104 fails: a file of the checkpoint to come, with its parts uploaded and evicted, is removed; who uses it next finds
no file, takes it for a new one, and all its parts for local. -/
theorem C104_violated : ∃ (f : File) (last i : Nat), f.there = true ∧ i * part + blk < f.size ∧ (f.hd i).st = .notLoaded ∧
    (header (last + 1) last (check f) i).st = .loaded :=
  ⟨gone2, 4, 0, by decide +kernel, by decide +kernel, by decide +kernel, by decide +kernel⟩

end Unlink

end Verif.S3Parts
