import Verif.S3Headers.Steps

/-!
# The cache of the headers in S3 mode: C129–C132
-/

namespace Verif.S3Headers

open Verif.S3Parts (Part Status)

/-- The words in the files at the start; a missing or empty file stands for the words `fresh`. -/
def atStart (P : Par) (f0 : Nat → Option (Nat → Part)) (t j : Nat) : Part :=
  match f0 t with
  | some f => f j
  | none => P.fresh t j

theorem inv_reach {P : Par} {f0 : Nat → Option (Nat → Part)} {as : List Act} {w : World}
    (hg : ∀ a ∈ as, a.good = true) (hr : run P (init f0) as = some w) : Inv P (atStart P f0) w :=
  inv_run (inv_init P f0) hg hr

/-! ### C129: the words of the headers behave like the words of arrays

Full statement: for all runs, `legal P.m P.fresh (atStart P f0) w.log`: every value read is the last one written to that
word of that header, a compare-and-swap succeeds only on the expected value, a file is unlinked only if no part of it is
in use.  Missing: runs in which the reading or the writing of a header fails (`fatal`, `lose`); there it is false. -/

theorem C129_partial {P : Par} {f0 : Nat → Option (Nat → Part)} {as : List Act} {w : World}
    (hg : ∀ a ∈ as, a.good = true) (hr : run P (init f0) as = some w) :
    legal P.m P.fresh (atStart P f0) w.log :=
  (inv_reach hg hr).leg

/-- A part that is loaded. -/
def lo : Part := ⟨0, .loaded, false, false, false, 0⟩
/-- A part that is loaded and dirty. -/
def di : Part := ⟨0, .loaded, true, false, false, 0⟩
/-- A part that is loaded, dirty and scheduled. -/
def sc : Part := ⟨0, .loaded, true, false, true, 0⟩
/-- A part that is loaded and locked. -/
def lk : Part := ⟨1, .loaded, false, false, false, 0⟩

/-- One buffer. -/
def P1 : Par := ⟨1, 1, fun _ _ => zero, fun _ => false⟩
/-- Two buffers, headers of two words. -/
def P2 : Par := ⟨2, 2, fun _ _ => zero, fun _ => false⟩

/-- Begin to load header `t` into buffer `v`, up to the change of the tags. -/
def enter (P : Par) (t v : Nat) : List Act := [.load t] ++ List.replicate P.n .seek ++ [.pick v, .go v 0, .go v 0]
/-- Go on to the end. -/
def rest (P : Par) (v : Nat) : List Act := List.replicate (P.m + 3) (.go v 0)
/-- Load header `t` into buffer `v`. -/
def loads (P : Par) (t v : Nat) : List Act := enter P t v ++ rest P v
/-- Process `p` reads a word, or begins to change it. -/
def reads (p t i : Nat) (op : Op) (v : Nat) : List Act := [.look p t i op v, .tag p true, .chk p, .value p]
/-- Process `p` changes a word. -/
def cas (p t i : Nat) (old new : Part) (v : Nat) : List Act := reads p t i (.cas old new) v ++ [.xchg p]

/-- A change of header 7 that comes between the change of the tags and the exchange of its word; the header is written,
loaded into the other buffer, and unlinked when its part is beyond the end of the file; a locked part is kept. -/
def life : List Act :=
  loads P2 7 0 ++ cas 0 7 0 zero di 0 ++ reads 1 7 1 (.cas zero lo) 0 ++ enter P2 8 0 ++ [.xchg 1] ++ rest P2 0 ++
  reads 2 8 1 .read 0 ++ loads P2 7 1 ++ reads 2 7 1 .read 1 ++ reads 2 7 0 (.cas zero lo) 1 ++ cas 0 7 0 di zero 1 ++
  [.sync 1, .go 1 0, .go 1 0, .go 1 0, .unl 7 1, .lock] ++ List.replicate 7 (.go 1 1) ++ loads P2 7 1 ++
  reads 2 7 1 .read 1 ++ cas 0 7 1 zero lk 1 ++ [.unl 7 1, .lock] ++ List.replicate 7 (.go 1 1) ++ loads P2 7 1 ++
  reads 2 7 1 .read 1

theorem C129_partial_case : (∀ a ∈ life, a.good = true) ∧ (run P2 (init fun _ => none) life).map (·.log.reverse) = some
    [.done 7 0 zero di, .done 7 1 zero lo, .read 8 1 zero, .read 7 1 lo, .no 7 0 di, .done 7 0 di zero, .unlink 7 1,
     .read 7 1 zero, .done 7 1 zero lk, .read 7 1 lk] := by
  decide +kernel

/-- The process that loads header 8 in place of header 7 fails in `read_from_file`.  The buffer has the tag of 8 and the
words of 7; the next change of the buffer writes them to the file of 8, and the change of 7 is lost. -/
theorem C129_violated_fatal : ∃ as w, run P1 (init fun _ => none) as = some w ∧
    w.log.reverse = [.done 7 0 zero di, .read 8 0 di, .read 7 0 zero] ∧
    ¬ legal P1.m P1.fresh (atStart P1 fun _ => none) w.log := by
  let as := loads P1 7 0 ++ cas 0 7 0 zero di 0 ++ enter P1 8 0 ++ [.fatal 0] ++ loads P1 9 0 ++ loads P1 8 0 ++
    reads 0 8 0 .read 0 ++ loads P1 7 0 ++ reads 0 7 0 .read 0
  have h : (run P1 (init fun _ => none) as).map (·.log) = some [.read 7 0 zero, .read 8 0 di, .done 7 0 zero di] := by
    decide +kernel
  obtain ⟨w, hw, hl⟩ := Option.map_eq_some_iff.mp h
  refine ⟨as, w, hw, by rw [hl]; rfl, ?_⟩
  rw [hl]
  intro hh
  exact absurd (show di = zero from hh.1.2) (by decide)

/-- `pg_pwrite` fails in `write_to_file`, which is logged only: the change of header 7 is lost. -/
theorem C129_violated_write : ∃ as w, run P1 (init fun _ => none) as = some w ∧
    w.log.reverse = [.done 7 0 zero di, .read 7 0 zero] ∧
    ¬ legal P1.m P1.fresh (atStart P1 fun _ => none) w.log := by
  let as := loads P1 7 0 ++ cas 0 7 0 zero di 0 ++ enter P1 8 0 ++ [.go 0 0, .go 0 0, .lose 0, .go 0 0] ++ loads P1 7 0 ++
    reads 0 7 0 .read 0
  have h : (run P1 (init fun _ => none) as).map (·.log) = some [.read 7 0 zero, .done 7 0 zero di] := by
    decide +kernel
  obtain ⟨w, hw, hl⟩ := Option.map_eq_some_iff.mp h
  refine ⟨as, w, hw, by rw [hl]; rfl, ?_⟩
  rw [hl]
  intro hh
  exact absurd (show zero = di from hh.2) (by decide)

/-! ### C130: a failed compare-and-swap tells the value of the word

Full statement: for all runs, the value `x` of an event `lost t i x` is that of word `i` of header `t` at that time.
Missing: the buffer has been given to another header between the reading of the word and the exchange; there it is
false. -/

/-- It is so if the word was not exchanged for that of another header since it was read. -/
theorem C130_partial {P : Par} {f0 : Nat → Option (Nat → Part)} {as : List Act} {w w' : World}
    (hg : ∀ a ∈ as, a.good = true) (hr : run P (init f0) as = some w) {p t i v c : Nat} {old new : Part} {d : Bool}
    (hp : w.rd p = .xchg t i old new v c d) (hc : ((w.buf v).cell i).cnt = c) (hs : step P w (.xchg p) = some w') :
    ∃ x, x = after P.fresh (atStart P f0) w.log t i ∧
      ((x = old ∧ w'.log = .done t i old new :: w.log) ∨ w'.log = .lost t i x :: w.log) := by
  have h := inv_reach hg hr
  have hR := h.rds p
  rw [hp] at hR
  obtain ⟨r1, r2, _, _, r5⟩ := hR
  have hval := ((h.bufs v r1).cval i r2 t (r5 hc)).1
  refine ⟨_, hval, ?_⟩
  simp only [step, hp] at hs
  split at hs
  · rename_i e
    cases hs
    exact Or.inl ⟨e.1, rfl⟩
  · cases hs
    exact Or.inr rfl

/-- Two processes change the same word: the second is told the value of the first.  A third fails because of a
`sync_buffer`, and is told the value it expected. -/
theorem C130_partial_case :
    let as := loads P1 7 0 ++ reads 0 7 0 (.cas zero lo) 0 ++ cas 1 7 0 zero di 0
    let bs := as ++ [.xchg 0] ++ reads 0 7 0 (.cas di sc) 0 ++ [.sync 0, .go 0 0]
    (∀ a ∈ bs, a.good = true) ∧
    (run P1 (init fun _ => none) as).map (fun w => ((w.buf 0).cell 0).cnt) = some 2 ∧
    (run P1 (init fun _ => none) (as ++ [.xchg 0])).map (·.log.head?) = some (some (.lost 7 0 di)) ∧
    (run P1 (init fun _ => none) bs).map (fun w => ((w.buf 0).cell 0).cnt) = some 2 ∧
    (run P1 (init fun _ => none) (bs ++ [.xchg 0])).map (·.log.head?) = some (some (.lost 7 0 di)) := by
  decide +kernel

/-- Header 8 takes the buffer of header 7 between the reading of the word and the exchange; the process is told the word
of 8.  If it is `s3_header_mark_part_scheduled_for_write` it returns false, and the dirty part of 7 is not scheduled. -/
theorem C130_violated : ∃ as w t i x, (∀ a ∈ as, a.good = true) ∧ run P1 (init fun _ => none) as = some w ∧
    w.log.head? = some (.lost t i x) ∧ schedEnds x = true ∧
    schedEnds (after P1.fresh (atStart P1 fun _ => none) w.log t i) = false := by
  let as := loads P1 7 0 ++ cas 0 7 0 zero di 0 ++ reads 0 7 0 (.cas di sc) 0 ++ loads P1 8 0 ++ [.xchg 0]
  have h : (run P1 (init fun _ => none) as).map (·.log) = some [.lost 7 0 zero, .done 7 0 zero di] := by
    decide +kernel
  obtain ⟨w, hw, hl⟩ := Option.map_eq_some_iff.mp h
  refine ⟨as, w, 7, 0, zero, by decide, hw, by rw [hl]; rfl, by decide, ?_⟩
  rw [hl]
  decide

/-! ### C131: what leaves the cache is in the file

Full statement: for all runs, a header that is in no buffer is in its file, and so is every header when no buffer is
dirty.  Missing: failures, as for C129. -/

theorem C131_partial {P : Par} {f0 : Nat → Option (Nat → Part)} {as : List Act} {w : World}
    (hg : ∀ a ∈ as, a.good = true) (hr : run P (init f0) as = some w) (t j : Nat) (hj : j < P.m)
    (hc : ∀ v, v < P.n → (w.buf v).tag = some t → (w.buf v).job = .free ∧ ((w.buf v).cell j).dirty = false)
    (hs : ∀ v, v < P.n → (w.buf v).shadow ≠ some t) :
    (match w.file t with | some f => f j | none => P.fresh t j) = after P.fresh (atStart P f0) w.log t j := by
  have h := inv_reach hg hr
  show fileVal P w.file t j = _
  by_cases hx : ∃ v, v < P.n ∧ (w.buf v).tag = some t
  · obtain ⟨v, hv, ht⟩ := hx
    obtain ⟨hf, hd⟩ := hc v hv ht
    have hb := h.bufs v hv
    have hct := hb.ctag j hj
    rw [hf] at hct
    have hct' : ((w.buf v).cell j).tag = some t := by rw [hct]; exact ht
    obtain ⟨a, b⟩ := hb.cval j hj t hct'
    rcases b hd with b | b
    · rw [b, a]
    · rw [hf] at b; exact b.elim
  · refine h.file t ?_ j hj
    intro v hv hcv
    rcases hcv with e | e
    · exact hx ⟨v, hv, e⟩
    · exact hs v hv e

/-- Header 7 has been changed and then synced, header 8 has left its buffer. -/
theorem C131_partial_case :
    let as := loads P2 8 0 ++ cas 0 8 1 zero lo 0 ++ loads P2 7 0 ++ cas 0 7 0 zero di 0 ++ [.sync 0, .go 0 0, .go 0 0, .go 0 0]
    (∀ a ∈ as, a.good = true) ∧
    (run P2 (init fun _ => none) as).map (fun w => [(w.buf 0).tag, (w.buf 0).shadow, (w.buf 1).tag]) =
      some [some 7, none, none] ∧
    (run P2 (init fun _ => none) as).map (fun w => ((w.buf 0).cell 0).dirty) = some false ∧
    (run P2 (init fun _ => none) as).map (fun w => [(w.file 7).map (· 0), (w.file 8).map (· 1)]) = some [some di, some lo] := by
  decide +kernel

/-- After a failed write the dirty bits are cleared and the file does not hold the words. -/
theorem C131_violated : ∃ as w, run P1 (init fun _ => none) as = some w ∧ (w.buf 0).tag = some 7 ∧
    ((w.buf 0).cell 0).dirty = false ∧ w.log = [.done 7 0 zero di] ∧ w.file 7 = none := by
  let as := loads P1 7 0 ++ cas 0 7 0 zero di 0 ++ [.sync 0, .go 0 0, .lose 0]
  have h : (run P1 (init fun _ => none) as).map (fun w => ((w.buf 0).tag, ((w.buf 0).cell 0).dirty, w.log, (w.file 7).isNone)) =
      some (some 7, false, [.done 7 0 zero di], true) := by decide +kernel
  obtain ⟨w, hw, hl⟩ := Option.map_eq_some_iff.mp h
  simp only [Prod.mk.injEq, Option.isNone_iff_eq_none] at hl
  exact ⟨as, w, hw, hl.1, hl.2.1, hl.2.2.1, hl.2.2.2⟩

/-! ### C132: nobody waits forever

Full statement: a process that wants a word of a header gets it.  Proved: some holder of a lock can always go on (no
deadlock), if nothing fails.  Missing: fairness of the locks, and the failures; after `fatal` it is false. -/

/-- Steps of the holders of locks. -/
def Act.holder : Act → Bool
  | .seek => true
  | .pick _ => true
  | .lock => true
  | .go _ _ => true
  | _ => false

theorem go_some (P : Par) (w : World) (v : Nat) (h : (w.buf v).job ≠ .free) : ∃ w', go P w v 0 = some w' := by
  unfold go
  cases hj : (w.buf v).job with
  | free => exact absurd hj h
  | bump n => simp only [hj]; exact ⟨_, rfl⟩
  | swap n => simp only [hj]; exact ⟨_, rfl⟩
  | rdf => simp only [hj]; split <;> exact ⟨_, rfl⟩
  | exch nv nd k old d =>
    by_cases hk : k < P.m
    · simp only [hj, hk, if_true]; exact ⟨_, rfl⟩
    · simp only [hj, hk, if_false]; exact ⟨_, rfl⟩
  | fin => simp only [hj]; exact ⟨_, rfl⟩
  | sync k old d =>
    by_cases hk : k < P.m
    · simp only [hj, hk, if_true]; exact ⟨_, rfl⟩
    · simp only [hj, hk, if_false]; exact ⟨_, rfl⟩

/-- If a lock is held, of the group or of a buffer, one of the holders can go on. -/
theorem C132_deadlock_partial {P : Par} {f0 : Nat → Option (Nat → Part)} {as : List Act} {w : World} (hn : 0 < P.n)
    (hg : ∀ a ∈ as, a.good = true) (hr : run P (init f0) as = some w)
    (hl : w.grp ≠ .free ∨ ∃ v, v < P.n ∧ (w.buf v).job ≠ .free) : ∃ a w', a.holder = true ∧ step P w a = some w' := by
  have h := inv_reach hg hr
  have busy : ∀ v, v < P.n → (w.buf v).job ≠ .free → ∃ a w', Act.holder a = true ∧ step P w a = some w' := by
    intro v hv hj
    obtain ⟨w', hw⟩ := go_some P w v hj
    exact ⟨.go v 0, w', rfl, by simp only [step, hv, if_true]; exact hw⟩
  rcases hl with hl | ⟨v, hv, hj⟩
  · cases hgr : w.grp with
    | free => exact absurd hgr hl
    | scan t u =>
      by_cases hu : u < P.n
      · by_cases hj : (w.buf u).job = .free
        · refine ⟨.seek, ?_⟩
          simp only [step, hgr, hu, if_true, hj]
          by_cases e1 : (w.buf u).tag = some t
          · simp only [e1, if_true]; exact ⟨_, rfl, rfl⟩
          · by_cases e2 : (w.buf u).shadow = some t
            · simp only [e1, e2, if_true, if_false]; exact ⟨_, rfl, rfl⟩
            · simp only [e1, e2, if_false]; exact ⟨_, rfl, rfl⟩
        · exact busy u hu hj
      · have hG := h.grp
        rw [hgr] at hG
        have hun : u = P.n := by have := hG.1; omega
        by_cases hj : (w.buf 0).job = .free
        · refine ⟨.pick 0, ?_⟩
          simp only [step, hgr, hun, hn, and_self, if_true, hj]
          exact ⟨_, rfl, rfl⟩
        · exact busy 0 hn hj
    | want v =>
      have hG := h.grp
      rw [hgr] at hG
      by_cases hj : (w.buf v).job = .free
      · refine ⟨.lock, ?_⟩
        simp only [step, hgr, hj]
        exact ⟨_, rfl, rfl⟩
      · exact busy v hG hj
    | chg v =>
      have hG := h.grp
      rw [hgr] at hG
      refine busy v hG.1 (fun e => ?_)
      have := hG.2.1
      rw [e] at this
      cases this
  · exact busy v hv hj

/-- Header 7 is leaving buffer 0 and one process waits for it at buffer 0 with the lock of the group. -/
theorem C132_case : let as := loads P2 7 0 ++ enter P2 8 0 ++ [.load 7]
    (∀ a ∈ as, a.good = true) ∧
    (run P2 (init fun _ => none) as).map (fun w => ((step P2 w .seek).isNone, (step P2 w (.go 0 0)).isSome)) =
      some (true, true) := by
  decide +kernel

/-- What processes that want a word of header `t` do. -/
def Act.wants (t : Nat) : Act → Bool
  | .look _ t' _ .read _ => t' == t
  | .tag _ _ => true
  | .chk _ => true
  | .value _ => true
  | .load t' => t' == t
  | .seek => true
  | .pick _ => true
  | .go _ _ => true
  | _ => false

/-- The state after a failed load of header 8: the buffer has the tag, but the words are those of before. -/
structure Stuck (w : World) : Prop where
  tag : (w.buf 0).tag = some 8
  cnt : (w.buf 0).cnt = 4
  job : (w.buf 0).job = .free
  cell : ((w.buf 0).cell 0).cnt = 2
  grp : w.grp = .free ∨ w.grp = .scan 8 0
  log : w.log = []
  rds : ∀ p, w.rd p = .idle ∨ ∃ t i v, v = 0 ∧ i = 0 ∧ (w.rd p = .cnt t i .read v 4 ∨ w.rd p = .tag t i .read v 4 ∨ w.rd p = .chk t i .read v 4)

theorem Stuck.setRd {w : World} (h : Stuck w) (p : Nat) (r : Rd) (hr : r = .idle ∨ ∃ t i v, v = 0 ∧ i = 0 ∧
    (r = .cnt t i .read v 4 ∨ r = .tag t i .read v 4 ∨ r = .chk t i .read v 4)) : Stuck (w.at p r) := by
  refine ⟨h.tag, h.cnt, h.job, h.cell, h.grp, h.log, ?_⟩
  intro q
  show set w.rd p r q = _ ∨ _
  by_cases e : q = p
  · subst e
    simp only [World.at, set_same]; exact hr
  · simp only [World.at, set_other _ _ e]; exact h.rds q

theorem stuck_step {w w' : World} {a : Act} (h : Stuck w) (ha : a.wants 8 = true) (hs : step P1 w a = some w') : Stuck w' := by
  cases a with
  | look p t i op v =>
    simp only [step] at hs
    split at hs
    · split at hs
      · rename_i hvi
        cases hs
        cases op with
        | cas o n => cases ha
        | read =>
          have hv0 : v = 0 := by have : v < 1 := hvi.1; omega
          have hi0 : i = 0 := by have : i < 1 := hvi.2; omega
          subst hv0; subst hi0
          rw [h.cnt]
          exact h.setRd p _ (Or.inr ⟨t, 0, 0, rfl, rfl, Or.inl rfl⟩)
      · cases hs
    · cases hs
  | tag p torn =>
    simp only [step] at hs
    split at hs
    · rename_i t i op v c hr
      have hR := h.rds p
      rw [hr] at hR
      have hh : v = 0 ∧ i = 0 ∧ c = 4 ∧ op = .read := by
        rcases hR with e | ⟨t', i', v', e1, e2, e | e | e⟩ <;> cases e
        exact ⟨e1, e2, rfl, rfl⟩
      obtain ⟨rfl, rfl, rfl, rfl⟩ := hh
      by_cases hc : (if (w.buf 0).cnt % 2 = 1 then torn else decide ((w.buf 0).tag = some t)) = true
      · rw [if_pos hc] at hs
        cases hs
        exact h.setRd p _ (Or.inr ⟨t, 0, 0, rfl, rfl, Or.inr (Or.inl rfl)⟩)
      · rw [if_neg hc] at hs
        cases hs
        exact h.setRd p _ (Or.inl rfl)
    · cases hs
  | chk p =>
    simp only [step] at hs
    split at hs
    · rename_i t i op v c hr
      have hR := h.rds p
      rw [hr] at hR
      have hh : v = 0 ∧ i = 0 ∧ c = 4 ∧ op = .read := by
        rcases hR with e | ⟨t', i', v', e1, e2, e | e | e⟩ <;> cases e
        exact ⟨e1, e2, rfl, rfl⟩
      obtain ⟨rfl, rfl, rfl, rfl⟩ := hh
      split at hs
      · cases hs
        exact h.setRd p _ (Or.inr ⟨t, 0, 0, rfl, rfl, Or.inr (Or.inr rfl)⟩)
      · cases hs
        exact h.setRd p _ (Or.inl rfl)
    · cases hs
  | value p =>
    simp only [step] at hs
    split at hs
    · rename_i t i op v c hr
      have hR := h.rds p
      rw [hr] at hR
      have hh : v = 0 ∧ i = 0 ∧ c = 4 := by
        rcases hR with e | ⟨t', i', v', e1, e2, e | e | e⟩ <;> cases e
        exact ⟨e1, e2, rfl⟩
      obtain ⟨rfl, rfl, rfl⟩ := hh
      have : ((w.buf 0).cell 0).cnt ≠ 4 := by rw [h.cell]; decide
      rw [if_pos this] at hs
      cases hs
      exact h.setRd p _ (Or.inl rfl)
    · cases hs
  | load t =>
    have ht : t = 8 := by simpa [Act.wants] using ha
    subst ht
    simp only [step] at hs
    split at hs
    · cases hs
      exact ⟨h.tag, h.cnt, h.job, h.cell, Or.inr rfl, h.log, h.rds⟩
    · cases hs
  | seek =>
    rcases h.grp with hg | hg
    · simp [step, hg] at hs
    · simp only [step, hg, h.tag, if_true, show (0 : Nat) < P1.n from Nat.one_pos, Option.some.injEq] at hs
      subst hs
      exact ⟨h.tag, h.cnt, h.job, h.cell, Or.inl rfl, h.log, h.rds⟩
  | pick v =>
    rcases h.grp with hg | hg
    · simp [step, hg] at hs
    · simp [step, hg, P1] at hs
  | go v size =>
    simp only [step] at hs
    split at hs
    · rename_i hv
      have : v = 0 := by have : v < 1 := hv; omega
      subst this
      simp [go, h.job] at hs
    · cases hs
  | xchg p => cases ha
  | unl t v => cases ha
  | lock => cases ha
  | sync v => cases ha
  | fatal v => cases ha
  | lose v => cases ha

/-- After a failed load of header 8 the lock is free, but whatever the processes do that want a word of it, none of them
gets it. -/
theorem C132_violated : ∃ as w, run P1 (init fun _ => none) as = some w ∧ w.grp = .free ∧ (w.buf 0).job = .free ∧
    ∀ bs w', (∀ b ∈ bs, b.wants 8 = true) → run P1 w bs = some w' → w'.log = [] := by
  let as := loads P1 7 0 ++ enter P1 8 0 ++ [.fatal 0]
  have h : (run P1 (init fun _ => none) as).isSome = true := by decide +kernel
  obtain ⟨w, hw⟩ := Option.isSome_iff_exists.mp h
  have hst : Stuck w := by
    have e : some w = run P1 (init fun _ => none) as := hw.symm
    have : w = (run P1 (init fun _ => none) as).get h := by simp [hw]
    subst this
    exact ⟨rfl, rfl, rfl, rfl, Or.inl rfl, rfl, fun _ => Or.inl rfl⟩
  have hg : w.grp = .free := by
    have : w = (run P1 (init fun _ => none) as).get h := by simp [hw]
    subst this; rfl
  refine ⟨as, w, hw, hg, hst.job, ?_⟩
  intro bs
  clear hw hg h
  induction bs generalizing w with
  | nil => intro w' _ hr; cases hr; exact hst.log
  | cons b bs ih =>
    intro w' hb hr
    simp only [run] at hr
    split at hr
    · cases hr
    · rename_i w1 hs
      exact ih w1 (stuck_step hst (hb b (List.mem_cons_self ..)) hs) w' (fun x hx => hb x (List.mem_cons_of_mem _ hx)) hr

end Verif.S3Headers
