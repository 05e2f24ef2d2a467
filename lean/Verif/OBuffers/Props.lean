import Verif.OBuffers.Calls

/-!
# C28: reads return the bytes most recently written
-/

set_option linter.unusedSimpArgs false
set_option linter.unusedVariables false

namespace Verif.OBuffers

variable {c : Cfg} {first : Nat → Nat → Nat} {s : St}

/-- The bytes at the start. -/
def firstOf (c : Cfg) (disk : Key → Nat → Nat) (tag a : Nat) : Nat := disk (tag, a / c.blk) (a % c.blk)

/-- Every call made in the run is one of those of `OpOk`. -/
def Allowed (c : Cfg) (s : St) : List Act → Prop
  | [] => True
  | a :: as => (∀ p op, a = .call p op → OpOk c s op) ∧ Allowed c (step c s a) as

theorem victim_lt {b : Nat → Nat → Buf} {g : Nat} : victim b g < 4 := by
  unfold victim
  have : ∀ (l : List Nat) (r : Nat × Nat), r.1 < 4 → (∀ j ∈ l, j < 4) →
      (l.foldl (fun (r : Nat × Nat) j =>
        if j = 0 ∨ (b g j).usage < r.2 then (j, (b g j).usage) else r) r).1 < 4 := by
    intro l
    induction l with
    | nil => intro r h _; exact h
    | cons j l ih =>
      intro r h hl
      rw [List.foldl_cons]
      apply ih
      · split
        · exact hl j (by simp)
        · exact h
      · intro i hi; exact hl i (by simp [hi])
  exact this slots (0, 0) (by simp) (by simp [slots])

theorem inv_init {disk : Key → Nat → Nat} {fex : Nat → Nat → Bool} {n : Nat} :
    Inv c (firstOf c disk) (init disk fex n) := by
  have hp : ∀ (p : Nat) (cl : Call), (init disk fex n).procs[p]? ≠ some (some cl) := by
    intro p cl h
    have := List.mem_of_getElem? h
    simp [init] at this
  refine ⟨⟨?_, ?_, ?_, ?_, ?_, ?_, ?_, ?_, ?_⟩, ?_, ?_⟩
  · intro p cl j h; exact absurd h (hp p cl)
  · intro g j p h; cases h
  · intro p cl j h; exact absurd h (hp p cl)
  · intro p cl j k h; exact absurd h (hp p cl)
  · intro g j k h; cases h
  · intro g j j' k h; cases h
  · intro g j k h; cases h
  · intro g j k _ h; cases h
  · intro k _ _ o ho
    show disk k o = firstOf c disk k.1 (k.2 * c.blk + o)
    unfold firstOf
    rw [Nat.mul_comm, Nat.mul_add_div c.hb, Nat.div_eq_of_lt ho, Nat.mul_add_mod, Nat.mod_eq_of_lt ho]
    rfl
  · intro p cl h; exact absurd h (hp p cl)
  · refine ⟨?_, ?_, ?_⟩ <;> intro later
    · intro p op acc earlier e; exact absurd e (by simp [init])
    · intro p op acc earlier e; exact absurd e (by simp [init])
    · intro p op acc earlier e; exact absurd e (by simp [init])

theorem halve_usage {b : Nat → Nat → Buf} {g n : Nat} : ∀ g' j', halve b g n g' j' =
    { b g' j' with usage := if g' = g ∧ j' < n then (b g' j').usage / 2 else (b g' j').usage } := by
  intro g' j'
  unfold halve
  split <;> rfl

theorem inv_step {a : Act} (h : Inv c first s) (ha : ∀ p op, a = .call p op → OpOk c s op) :
    Inv c first (step c s a) := by
  cases a with
  | call p op =>
    rw [step]
    split
    · next hp =>
      split
      · exact h
      · next hs =>
        have hs' : 0 < op.size := by omega
        refine ⟨?_, ?_, ?_⟩
        · have hc := h.cache.event (ev := .call p op) (fun _ _ _ e => by cases e)
          refine ⟨?_, ?_, ?_, ?_, hc.group, hc.uniq, hc.four, hc.data, ?_⟩
          · intro q cl' j' hq e
            rcases get_set_cases hq with ⟨rfl, e'⟩ | ⟨hn, hq'⟩
            · cases e'; cases e
            · exact hc.wait q cl' j' hq' e
          · intro g' j' q e
            obtain ⟨cl', g1, g2⟩ := hc.lock g' j' q e
            have hqp : q ≠ p := by
              rintro rfl
              have : s.procs[q]? = some (some cl') := g1
              rw [hp] at this; cases this
            exact ⟨cl', (get_set_other hqp).trans g1, g2⟩
          · intro q cl' j' hq e
            rcases get_set_cases hq with ⟨rfl, e'⟩ | ⟨hn, hq'⟩
            · cases e'
              rcases e with e | ⟨_, _, e⟩ <;> cases e
            · exact hc.holds q cl' j' hq' e
          · intro q cl' j' k hq e
            rcases get_set_cases hq with ⟨rfl, e'⟩ | ⟨hn, hq'⟩
            · cases e'; cases e
            · exact hc.prev q cl' j' k hq' e
          · intro k' hk hev
            apply hc.disk k' hk
            intro q cl' j' hq e
            have hqp : q ≠ p := by
              rintro rfl
              have : s.procs[q]? = some (some cl') := hq
              rw [hp] at this; cases this
            exact hev q cl' j' ((get_set_other hqp).trans hq) e
        · intro q cl' hq
          rcases get_set_cases hq with ⟨rfl, e⟩ | ⟨hn, hq'⟩
          · cases e
            exact ⟨hs', at_start hs', ha _ _ rfl, During.start, fun _ i hi => absurd hi (Nat.not_lt_zero i),
              fun _ i hi => absurd hi (Nat.not_lt_zero i)⟩
          · refine (h.calls q cl' hq').event (ev := .call p op) rfl rfl ?_
            exact ⟨fun o e => (by cases e; exact hn rfl), fun o ok a e => (by cases e)⟩
        · exact h.hist.cons (fun _ _ _ e => (by cases e)) (fun _ _ _ e => (by cases e))
            (fun _ _ _ e => (by cases e))
    · exact h
  | run p =>
    rw [step]
    cases hp : s.procs[p]? with
    | none => exact h
    | some v =>
      cases v with
      | none => exact h
      | some cl =>
        dsimp only
        cases hpc : cl.pc with
        | scan =>
          dsimp only
          unfold doScan
          split
          · next j hh =>
            obtain ⟨h1, h2⟩ := hit_some hh
            exact h.quiet (h.cache.setPc hp (Or.inl hpc) (Or.inr (Or.inr ⟨j, rfl, h1, h2⟩))) rfl
              (fun _ _ e => e) (setPc_procs hp)
          · exact h.quiet (h.cache.setPc hp (Or.inl hpc) (Or.inr (Or.inl rfl))) rfl
              (fun _ _ e => e) (setPc_procs hp)
        | miss =>
          dsimp only
          unfold doMiss
          simp only
          split
          · exact h
          · next hw =>
            split
            · next j hh =>
              split
              · exact h
              · obtain ⟨h1, h2⟩ := hit_some hh
                have hc := h.cache.usage _ (halve_usage (g := cl.cur % c.groups) (n := j))
                have h3 : Inv c first { s with bufs := halve s.bufs (cl.cur % c.groups) j } :=
                  h.quiet hc rfl (fun _ _ e => e) (fun q cl' hq => ⟨cl', hq, rfl, rfl, rfl, rfl⟩)
                refine h3.quiet (h3.cache.setPc hp (Or.inr hpc) (Or.inr (Or.inr ⟨j, rfl, h1, ?_⟩))) rfl
                  (fun _ _ e => e) (setPc_procs hp)
                show (halve _ _ _ _ _).id = _
                rw [halve_usage]; exact h2
            · next hh =>
              split
              · exact h
              · next hs =>
                split
                · exact h
                · next hl =>
                  have hl' : (s.bufs (cl.cur % c.groups) (victim s.bufs (cl.cur % c.groups))).lock = none := by
                    simpa using hl
                  have hw' : s.procs.any (waitsIn c (cl.cur % c.groups)) = false := by simpa using hw
                  have hc := h.cache.take hp hpc victim_lt hw' hh (by simpa using hs) hl'
                  have hc2 : Cache c first (setPc { s with
                      bufs := setBuf (halve s.bufs (cl.cur % c.groups) 4) (cl.cur % c.groups)
                        (victim s.bufs (cl.cur % c.groups))
                        (⟨some cl.key, (s.bufs (cl.cur % c.groups) (victim s.bufs (cl.cur % c.groups))).id, 1, false,
                          (s.bufs (cl.cur % c.groups) (victim s.bufs (cl.cur % c.groups))).data, some p⟩ : Buf) } p cl
                      (.evict (victim s.bufs (cl.cur % c.groups))
                        (s.bufs (cl.cur % c.groups) (victim s.bufs (cl.cur % c.groups))).dirty
                        (s.bufs (cl.cur % c.groups) (victim s.bufs (cl.cur % c.groups))).id)) := by
                    refine Cache.usage (fun g j => if g = cl.cur % c.groups ∧ j = victim s.bufs (cl.cur % c.groups)
                      then 1 else if g = cl.cur % c.groups ∧ j < 4 then (s.bufs g j).usage / 2
                      else (s.bufs g j).usage) ?_ hc
                    intro g j
                    dsimp only [setPc]
                    by_cases e : g = cl.cur % c.groups ∧ j = victim s.bufs (cl.cur % c.groups)
                    · simp only [e.1, e.2, setBuf_same, if_pos, and_self, if_true]
                    · simp only [setBuf_other e, if_neg e]
                      exact halve_usage g j
                  exact h.quiet hc2 rfl (fun _ _ e => e) (setPc_procs (s := { s with bufs := _ }) hp)
        | waitHit j =>
          dsimp only
          unfold doWait
          simp only
          split
          · exact h
          · next hl =>
            have hl' : (s.bufs (cl.cur % c.groups) j).lock = none := by simpa using hl
            have hc : Cache c first { s with
                bufs := setBuf s.bufs (cl.cur % c.groups) j
                  { s.bufs (cl.cur % c.groups) j with
                    usage := (s.bufs (cl.cur % c.groups) j).usage + 1 } } := by
              refine h.cache.usage (fun g' j' => if g' = cl.cur % c.groups ∧ j' = j then
                (s.bufs (cl.cur % c.groups) j).usage + 1 else (s.bufs g' j').usage) ?_
              intro g' j'
              by_cases e : g' = cl.cur % c.groups ∧ j' = j
              · rw [e.1, e.2, setBuf_same, if_pos ⟨rfl, rfl⟩]
              · rw [setBuf_other e, if_neg e]
            have h1 : Inv c first { s with
                bufs := setBuf s.bufs (cl.cur % c.groups) j
                  { s.bufs (cl.cur % c.groups) j with
                    usage := (s.bufs (cl.cur % c.groups) j).usage + 1 } } :=
              h.quiet hc rfl (fun _ _ e => e) (fun q cl' hq => ⟨cl', hq, rfl, rfl, rfl, rfl⟩)
            refine h1.copy hp hpc ?_
            show (setBuf _ _ _ _ _ _).lock = _
            rw [setBuf_same]; exact hl'
        | evict j pd prev =>
          dsimp only
          unfold doEvict
          simp only
          split
          · next k =>
            exact h.quiet (h.cache.writeBack hp hpc _) rfl (fun t n => setFex_mono t n)
              (setPc_procs (s := { s with disk := _, fex := _ }) hp)
          · next hx =>
            refine h.quiet (h.cache.noWriteBack hp hpc ?_) rfl (fun _ _ e => e) (setPc_procs hp)
            rintro k ⟨rfl, rfl⟩
            exact hx k rfl rfl
        | load j => exact h.load hp hpc
  | flush g j =>
    rw [step]
    unfold flushBuf
    simp only
    split
    · exact h
    · next hl =>
      split
      · next k hd hid =>
        exact h.quiet (h.cache.flush (by simpa using hl) hid _) rfl (fun t n => setFex_mono t n)
          (fun q cl' hq => ⟨cl', hq, rfl, rfl, rfl, rfl⟩)
      · exact h

theorem inv_run {as : List Act} : ∀ {s : St}, Inv c first s → Allowed c s as →
    Inv c first (run c s as) := by
  induction as with
  | nil => intro s h _; exact h
  | cons a as ih =>
    intro s h ha
    exact ih (inv_step h ha.1) ha.2

/-- C28, for runs in which no write asks to leave the buffer clean and no call that
tolerates a missing file is made while the file is missing.  Missing: those two kinds of
calls, for which the property is false (below). -/
theorem C28_partial (c : Cfg) (disk : Key → Nat → Nat) (fex : Nat → Nat → Bool) (n : Nat)
    (as : List Act) (h : Allowed c (init disk fex n) as) :
    C28 (firstOf c disk) (run c (init disk fex n) as).trace :=
  (inv_run inv_init h).hist

/-! ## Cases -/

/-- Real block size, four buffers in one group, 16 MB files (`src/transam/oxid.c:40`). -/
def cfg1 : Cfg := ⟨8192, 1, 2048, by decide, by decide, by decide⟩

/-- A write of bytes `v`, `v + 1`, ... -/
def wrOp (off size v : Nat) (markClean : Bool) : Op := ⟨true, 0, off, size, false, markClean, fun i => v + i⟩

/-- A read. -/
def rdOp (off size : Nat) (missingOk : Bool) : Op := ⟨false, 0, off, size, missingOk, false, fun _ => 0⟩

/-- A call of process `p` run to its end when it runs alone: at most five steps a block. -/
def alone (p : Nat) (op : Op) (blocks : Nat) : List Act :=
  .call p op :: List.replicate (5 * blocks) (.run p)

/-- A write over a block boundary, reads of four other blocks, so that the buffers are taken
for other blocks, then a read over the boundary. -/
def case1 : List Act :=
  alone 0 (wrOp 8190 4 50 false) 2 ++ alone 0 (rdOp (2 * 8192) 1 false) 1 ++
  alone 0 (rdOp (3 * 8192) 1 false) 1 ++ alone 0 (rdOp (4 * 8192) 1 false) 1 ++
  alone 0 (rdOp (5 * 8192) 1 false) 1 ++ alone 0 (rdOp (6 * 8192) 1 false) 1 ++
  alone 0 (rdOp 8189 5 false) 2

theorem allowed_of_ops : ∀ {as : List Act} {s : St}, (∀ p op, Act.call p op ∈ as →
    op.markClean = false ∧ op.missingOk = false) → Allowed c s as := by
  intro as
  induction as with
  | nil => intro s _; trivial
  | cons a as ih =>
    intro s h
    refine ⟨?_, ih (fun p op hm => h p op (by simp [hm]))⟩
    intro p op e
    subst e
    obtain ⟨h1, h2⟩ := h p op (by simp)
    exact ⟨fun _ => h1, fun h3 => by rw [h2] at h3; cases h3⟩

/-- The hypotheses of `C28_partial` hold for `case1`. -/
theorem case1_allowed : Allowed cfg1 (init (fun _ _ => 0) (fun _ _ => false) 1) case1 := by
  apply allowed_of_ops
  intro p op h
  simp only [case1, alone, List.mem_append, List.mem_cons, List.mem_replicate, Act.call.injEq,
    reduceCtorEq, and_false, or_false] at h
  rcases h with (((((⟨_, rfl⟩ | ⟨_, rfl⟩) | ⟨_, rfl⟩) | ⟨_, rfl⟩) | ⟨_, rfl⟩) | ⟨_, rfl⟩) | ⟨_, rfl⟩ <;> exact ⟨rfl, rfl⟩

/-- The result of the last call that returned. -/
def lastRet : List Ev → Option (Bool × Nat × List Nat)
  | .ret _ op ok acc :: _ => some (ok, op.off, slice acc 0 op.size)
  | _ => none

set_option maxRecDepth 100000 in
/-- And the last read gives the bytes written, after both blocks went to disk. -/
theorem case1_result : lastRet (run cfg1 (init (fun _ _ => 0) (fun _ _ => false) 1) case1).trace =
    some (true, 8189, [0, 50, 51, 52, 53]) := by
  decide

end Verif.OBuffers
