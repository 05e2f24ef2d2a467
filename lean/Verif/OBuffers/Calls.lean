import Verif.OBuffers.Step

/-!
# The calls in progress and the history
-/

set_option linter.unusedSimpArgs false
set_option linter.unusedVariables false

namespace Verif.OBuffers

variable {c : Cfg} {first : Nat → Nat → Nat} {s : St} {p : Nat} {cl : Call}

/-- An event that is not the start or the end of a call of `p`. -/
def Foreign (p : Nat) (ev : Ev) : Prop := (∀ o, ev ≠ .call p o) ∧ ∀ o ok acc, ev ≠ .ret p o ok acc

theorem During.cons {op : Op} {tr mid : List Ev} {ev : Ev} (h : During p op tr mid)
    (he : Foreign p ev) : During p op (ev :: tr) mid := by
  obtain ⟨later, earlier, sofar, h1, h2, h3, h4⟩ := h
  refine ⟨ev :: later, earlier, sofar, by rw [h1]; rfl, h2, ?_, ?_⟩
  · intro o' hm
    rw [List.cons_append, List.mem_cons] at hm
    rcases hm with hm | hm
    · exact he.1 _ hm.symm
    · exact h3 _ hm
  · intro o' ok acc hm
    rw [List.cons_append, List.mem_cons] at hm
    rcases hm with hm | hm
    · exact he.2 _ _ _ hm.symm
    · exact h4 _ _ _ hm

theorem During.now {op : Op} {tr : List Ev} {ev : Ev} (h : During p op tr tr)
    (he : Foreign p ev) : During p op (ev :: tr) (ev :: tr) := by
  obtain ⟨later, earlier, sofar, h1, h2, h3, h4⟩ := h
  have hl : later = [] := by
    have := congrArg List.length h1
    rw [List.length_append] at this
    exact List.eq_nil_of_length_eq_zero (by omega)
  subst hl
  refine ⟨[], earlier, ev :: sofar, rfl, by rw [h2]; rfl, ?_, ?_⟩
  · intro o' hm
    rw [List.nil_append, List.mem_cons] at hm
    rcases hm with hm | hm
    · exact he.1 _ hm.symm
    · exact h3 _ hm
  · intro o' ok acc hm
    rw [List.nil_append, List.mem_cons] at hm
    rcases hm with hm | hm
    · exact he.2 _ _ _ hm.symm
    · exact h4 _ _ _ hm

theorem During.start {op : Op} {tr : List Ev} : During p op (.call p op :: tr) (.call p op :: tr) :=
  ⟨[], tr, [], rfl, rfl, fun o' hm => (by simp at hm), fun o' ok acc hm => (by simp at hm)⟩

/-- The calls accepted by the theorem: writes do not ask to leave the buffer clean; calls
that tolerate a missing file are only made when the files exist. -/
def OpOk (c : Cfg) (s : St) (op : Op) : Prop :=
  (op.write = true → op.markClean = false) ∧
  (op.missingOk = true → ∀ b, firstBlk c op ≤ b → b ≤ lastBlk c op → s.fex op.tag (b / c.perFile) = true)

/-- The part of the invariant about one call in progress. -/
structure CallOk (c : Cfg) (first : Nat → Nat → Nat) (s : St) (p : Nat) (cl : Call) : Prop where
  size : 0 < cl.op.size
  at_ : At c cl.op cl.cur cl.ptr
  ok : OpOk c s cl.op
  during : During p cl.op s.trace s.trace
  rd : cl.op.write = false → ∀ i, i < cl.ptr → ∃ mid, During p cl.op s.trace mid ∧
    cl.acc i = value first mid cl.op.tag (cl.op.off + i)
  wr : cl.op.write = true → ∀ i, i < cl.ptr → ∃ mid ad bs,
    During p cl.op s.trace (.wr cl.op.tag ad bs :: mid) ∧
    ad ≤ cl.op.off + i ∧ cl.op.off + i < ad + bs.length ∧
    bs.getD (cl.op.off + i - ad) 0 = cl.op.buf i

/-- The whole invariant. -/
structure Inv (c : Cfg) (first : Nat → Nat → Nat) (s : St) : Prop where
  cache : Cache c first s
  calls : ∀ (p : Nat) cl, s.procs[p]? = some (some cl) → CallOk c first s p cl
  hist : C28 first s.trace

/-- Only the operation, the block and the bytes so far matter. -/
theorem CallOk.congr {s' : St} {cl' : Call} (h : CallOk c first s p cl)
    (ht : s'.trace = s.trace) (hf : ∀ t n, s.fex t n = true → s'.fex t n = true)
    (h1 : cl'.op = cl.op) (h2 : cl'.cur = cl.cur) (h3 : cl'.ptr = cl.ptr) (h4 : cl'.acc = cl.acc) :
    CallOk c first s' p cl' := by
  obtain ⟨a, b, d, e, f, g⟩ := h
  refine ⟨?_, ?_, ?_, ?_, ?_, ?_⟩
  · rw [h1]; exact a
  · rw [h1, h2, h3]; exact b
  · rw [h1]; exact ⟨d.1, fun hm b' hb hb' => hf _ _ (d.2 hm b' hb hb')⟩
  · rw [h1, ht]; exact e
  · rw [h1, h3, h4, ht]; exact f
  · rw [h1, h3, ht]; exact g

/-- Events of others do not matter. -/
theorem CallOk.event {s' : St} {ev : Ev} (h : CallOk c first s p cl)
    (ht : s'.trace = ev :: s.trace) (hf : s'.fex = s.fex) (he : Foreign p ev) :
    CallOk c first s' p cl := by
  obtain ⟨a, b, d, e, f, g⟩ := h
  refine ⟨a, b, ⟨d.1, by rw [hf]; exact d.2⟩, by rw [ht]; exact e.now he, ?_, ?_⟩
  · intro hw i hi
    obtain ⟨mid, h1, h2⟩ := f hw i hi
    exact ⟨mid, by rw [ht]; exact h1.cons he, h2⟩
  · intro hw i hi
    obtain ⟨mid, ad, bs, h1, h2⟩ := g hw i hi
    exact ⟨mid, ad, bs, by rw [ht]; exact h1.cons he, h2⟩

theorem C28.cons {tr : List Ev} {ev : Ev} (h : C28 first tr)
    (h1 : ∀ p op acc, ev = .ret p op true acc → op.write = false →
      ∀ i, i < op.size → ∃ mid, During p op tr mid ∧ acc i = value first mid op.tag (op.off + i))
    (h2 : ∀ p op acc, ev = .ret p op true acc → op.write = true →
      ∀ i, i < op.size → ∃ mid ad bs, During p op tr (.wr op.tag ad bs :: mid) ∧
        ad ≤ op.off + i ∧ op.off + i < ad + bs.length ∧ bs.getD (op.off + i - ad) 0 = op.buf i)
    (h3 : ∀ tag ad bs, ev = .wr tag ad bs →
      ∃ p op, op.write = true ∧ op.tag = tag ∧ During p op tr tr ∧
      ∀ i, i < bs.length → op.off ≤ ad + i ∧ ad + i < op.off + op.size ∧
        bs.getD i 0 = op.buf (ad + i - op.off)) :
    C28 first (ev :: tr) := by
  obtain ⟨g1, g2, g3⟩ := h
  refine ⟨?_, ?_, ?_⟩
  · intro later p op acc earlier e hw
    cases later with
    | nil =>
      rw [List.nil_append] at e; injection e with e1 e2; subst e2; exact h1 p op acc e1 hw
    | cons x later =>
      rw [List.cons_append] at e; injection e with e1 e2; exact g1 later p op acc earlier e2 hw
  · intro later p op acc earlier e hw
    cases later with
    | nil =>
      rw [List.nil_append] at e; injection e with e1 e2; subst e2; exact h2 p op acc e1 hw
    | cons x later =>
      rw [List.cons_append] at e; injection e with e1 e2; exact g2 later p op acc earlier e2 hw
  · intro later tag ad bs earlier e
    cases later with
    | nil =>
      rw [List.nil_append] at e; injection e with e1 e2; subst e2; exact h3 tag ad bs e1
    | cons x later =>
      rw [List.cons_append] at e; injection e with e1 e2; exact g3 later tag ad bs earlier e2

/-- Steps without events. -/
theorem Inv.quiet {s' : St} (h : Inv c first s) (hc : Cache c first s')
    (ht : s'.trace = s.trace) (hf : ∀ t n, s.fex t n = true → s'.fex t n = true)
    (hp : ∀ (q : Nat) cl', s'.procs[q]? = some (some cl') → ∃ cl : Call, s.procs[q]? = some (some cl) ∧
      cl'.op = cl.op ∧ cl'.cur = cl.cur ∧ cl'.ptr = cl.ptr ∧ cl'.acc = cl.acc) : Inv c first s' := by
  refine ⟨hc, ?_, by rw [ht]; exact h.hist⟩
  intro q cl' hq
  obtain ⟨cl, h0, h1, h2, h3, h4⟩ := hp q cl' hq
  exact (h.calls q cl h0).congr ht hf h1 h2 h3 h4

theorem setPc_procs {pc : Pc} (hp : s.procs[p]? = some (some cl)) :
    ∀ (q : Nat) cl', (Verif.OBuffers.setPc s p cl pc).procs[q]? = some (some cl') →
      ∃ cl : Call, s.procs[q]? = some (some cl) ∧
      cl'.op = cl.op ∧ cl'.cur = cl.cur ∧ cl'.ptr = cl.ptr ∧ cl'.acc = cl.acc := by
  intro q cl' hq
  rcases get_set_cases hq with ⟨rfl, e⟩ | ⟨hn, hq'⟩
  · cases e; exact ⟨cl, hp, rfl, rfl, rfl, rfl⟩
  · exact ⟨cl', hq', rfl, rfl, rfl, rfl⟩

/-- The end of a round of the loop. -/
theorem Inv.next {s' : St} {ev : Ev} {acc : Nat → Nat} (h : Inv c first s)
    (hp : s.procs[p]? = some (some cl)) {j : Nat} (hpc : cl.pc = .waitHit j)
    (hc : Cache c first { s' with trace := ev :: s'.trace })
    (ht : s'.trace = s.trace) (hf : s'.fex = s.fex) (hpr : s'.procs = s.procs)
    (hev : ∀ q, Foreign q ev)
    (hwr : ∀ tag ad bs, ev = .wr tag ad bs →
      cl.op.write = true ∧ cl.op.tag = tag ∧
      ∀ i, i < bs.length → cl.op.off ≤ ad + i ∧ ad + i < cl.op.off + cl.op.size ∧
        bs.getD i 0 = cl.op.buf (ad + i - cl.op.off))
    (hrd : cl.op.write = false → ∀ i, i < cl.ptr + copySize c cl.op cl.cur → ∃ mid,
      During p cl.op (ev :: s.trace) mid ∧ acc i = value first mid cl.op.tag (cl.op.off + i))
    (hwd : cl.op.write = true → ∀ i, i < cl.ptr + copySize c cl.op cl.cur → ∃ mid ad bs,
      During p cl.op (ev :: s.trace) (.wr cl.op.tag ad bs :: mid) ∧
      ad ≤ cl.op.off + i ∧ cl.op.off + i < ad + bs.length ∧
      bs.getD (cl.op.off + i - ad) 0 = cl.op.buf i) :
    Inv c first (Verif.OBuffers.next c s' p cl acc (copySize c cl.op cl.cur) ev) := by
  have hcall := h.calls p cl hp
  have hC : C28 first (ev :: s.trace) := by
    refine h.hist.cons ?_ ?_ ?_
    · intro q op acc e; exact absurd e ((hev q).2 _ _ _)
    · intro q op acc e; exact absurd e ((hev q).2 _ _ _)
    · intro tag ad bs e
      obtain ⟨h1, h2, h3⟩ := hwr tag ad bs e
      exact ⟨p, cl.op, h1, h2, hcall.during, h3⟩
  have hp' : s'.procs[p]? = some (some cl) := by rw [hpr]; exact hp
  unfold Verif.OBuffers.next
  split
  · next hlt =>
    refine ⟨?_, ?_, ?_⟩
    · exact Cache.leave (s := { s' with trace := ev :: s'.trace }) hc hp' hpc
        (fun cl' e => by cases e; rfl)
    · intro q cl' hq
      rcases get_set_cases hq with ⟨rfl, e⟩ | ⟨hn, hq'⟩
      · cases e
        refine ⟨hcall.size, piece_next hcall.size hcall.at_ hlt, ⟨hcall.ok.1, ?_⟩, ?_, ?_, ?_⟩
        · show _ → ∀ b, _ → _ → s'.fex _ _ = true
          rw [hf]; exact hcall.ok.2
        · show During _ _ (ev :: s'.trace) (ev :: s'.trace)
          rw [ht]; exact hcall.during.now (hev q)
        · intro hw i hi
          show ∃ mid, During _ _ (ev :: s'.trace) mid ∧ _
          rw [ht]; exact hrd hw i hi
        · intro hw i hi
          show ∃ mid ad bs, During _ _ (ev :: s'.trace) _ ∧ _
          rw [ht]; exact hwd hw i hi
      · rw [hpr] at hq'
        refine (h.calls q cl' hq').event (s' := _) (ev := ev) ?_ hf (hev q)
        show ev :: s'.trace = _
        rw [ht]
    · show C28 first (ev :: s'.trace)
      rw [ht]; exact hC
  · next hlt =>
    have hsz := piece_last hcall.size hcall.at_ hlt
    refine ⟨?_, ?_, ?_⟩
    · have := Cache.leave (s := { s' with trace := ev :: s'.trace }) (v := none) hc hp' hpc
        (fun cl' e => by cases e)
      exact Cache.event this (ev := .ret p cl.op true acc) (fun _ _ _ e => by cases e)
    · intro q cl' hq
      rcases get_set_cases hq with ⟨rfl, e⟩ | ⟨hn, hq'⟩
      · cases e
      · rw [hpr] at hq'
        have h1 : CallOk c first { s with trace := ev :: s.trace } q cl' :=
          (h.calls q cl' hq').event rfl rfl (hev q)
        refine h1.event (ev := .ret p cl.op true acc) ?_ hf ?_
        · show _ :: ev :: s'.trace = _ :: ev :: s.trace
          rw [ht]
        · refine ⟨fun o e => (by cases e), fun o ok a e => ?_⟩
          cases e; exact hn rfl
    · show C28 first (.ret p cl.op true acc :: ev :: s'.trace)
      rw [ht]
      refine hC.cons ?_ ?_ ?_
      · intro q op acc' e hw i hi
        cases e
        exact hrd hw i (by omega)
      · intro q op acc' e hw i hi
        cases e
        exact hwd hw i (by omega)
      · intro tag ad bs e; cases e

/-- The copy. -/
theorem Inv.copy (h : Inv c first s) (hp : s.procs[p]? = some (some cl)) {j : Nat}
    (hpc : cl.pc = .waitHit j) (hl : (s.bufs (cl.cur % c.groups) j).lock = none) :
    Inv c first (Verif.OBuffers.copy c s p cl j) := by
  have hcall := h.calls p cl hp
  obtain ⟨hj4, hid⟩ := h.cache.wait p cl j hp hpc
  have hD := (h.cache.data _ _ _ hl hid).1
  have hfit := piece_fits hcall.size hcall.at_
  have hle := piece_le hcall.size hcall.at_
  have hat := hcall.at_.2.2
  unfold Verif.OBuffers.copy
  by_cases hw : cl.op.write = true
  · have hmc := hcall.ok.1 hw
    simp only [hw, if_true, hmc, Bool.not_false]
    have hf : ∀ q, Foreign q (.wr cl.op.tag (cl.cur * c.blk + copyOffset c cl.op cl.cur)
        (slice cl.op.buf cl.ptr (copySize c cl.op cl.cur))) :=
      fun q => ⟨fun o e => (by cases e), fun o ok a e => (by cases e)⟩
    refine h.next hp hpc (j := j) ?_ rfl rfl rfl hf ?_ ?_ ?_
    · exact h.cache.write hp hpc hl hfit
    · intro tag ad bs e
      cases e
      refine ⟨hw, rfl, fun i hi => ?_⟩
      rw [slice_length] at hi
      refine ⟨by omega, by omega, ?_⟩
      rw [slice_getD hi]; congr 1; omega
    · intro hw'; rw [hw] at hw'; cases hw'
    · intro _ i hi
      by_cases hi' : i < cl.ptr
      · obtain ⟨mid, ad, bs, h1, h2⟩ := hcall.wr hw i hi'
        exact ⟨mid, ad, bs, h1.cons (hf p), h2⟩
      · refine ⟨s.trace, _, _, hcall.during.now (hf p), by omega, by rw [slice_length]; omega, ?_⟩
        rw [slice_getD (by omega)]; congr 1; omega
  · have hw' : cl.op.write = false := by simpa using hw
    simp only [hw', Bool.false_eq_true, if_false]
    have hf : ∀ q, Foreign q (.rd cl.op.tag (cl.cur * c.blk + copyOffset c cl.op cl.cur)
        (slice (s.bufs (cl.cur % c.groups) j).data (copyOffset c cl.op cl.cur)
          (copySize c cl.op cl.cur))) :=
      fun q => ⟨fun o e => (by cases e), fun o ok a e => (by cases e)⟩
    have hbufs : setBuf s.bufs (cl.cur % c.groups) j
        { s.bufs (cl.cur % c.groups) j with lock := none } = s.bufs := by
      funext g' j'
      by_cases e : g' = cl.cur % c.groups ∧ j' = j
      · obtain ⟨rfl, rfl⟩ := e
        rw [setBuf_same]
        rw [← hl]
      · rw [setBuf_other e]
    rw [hbufs]
    refine h.next hp hpc (j := j) ?_ rfl rfl rfl hf ?_ ?_ ?_
    · exact h.cache.event (fun _ _ _ e => by cases e)
    · intro tag ad bs e; cases e
    · intro _ i hi
      by_cases hi' : i < cl.ptr
      · obtain ⟨mid, h1, h2⟩ := hcall.rd hw' i hi'
        refine ⟨mid, h1.cons (hf p), ?_⟩
        unfold cpy
        rw [if_neg (by omega)]; exact h2
      · refine ⟨s.trace, hcall.during.cons (hf p), ?_⟩
        unfold cpy
        rw [if_pos (by omega), hD _ (by omega)]
        show value first s.trace cl.op.tag (cl.cur * c.blk + _) = _
        congr 1; omega
    · intro hw''; rw [hw'] at hw''; cases hw''

theorem setFex_mono {f : Nat → Nat → Bool} {t n : Nat} : ∀ t' n', f t' n' = true → setFex f t n t' n' = true := by
  intro t' n' h
  unfold setFex
  split
  · rfl
  · exact h

theorem setBuf_setBuf {b : Nat → Nat → Buf} {g j : Nat} {v w : Buf} :
    setBuf (setBuf b g j v) g j w = setBuf b g j w := by
  funext g' j'
  unfold setBuf
  split <;> rfl

theorem next_procs {s' : St} {v : Option Call} {cl' : Call} {acc : Nat → Nat} {n : Nat} {ev : Ev}
    (h1 : cl'.op = cl.op) (h2 : cl'.cur = cl.cur) (h3 : cl'.ptr = cl.ptr) :
    next c { s' with procs := s'.procs.set p v } p cl' acc n ev = next c s' p cl acc n ev := by
  obtain ⟨o, cu, pt, ac, pc⟩ := cl
  obtain ⟨o', cu', pt', ac', pc'⟩ := cl'
  simp only at h1 h2 h3
  subst h1 h2 h3
  unfold next
  split <;> simp [List.set_set]

theorem Inv.load (h : Inv c first s) (hp : s.procs[p]? = some (some cl)) {j : Nat}
    (hpc : cl.pc = .load j) : Inv c first (doLoad c s p cl j) := by
  have hcall := h.calls p cl hp
  have hfe : (cl.op.missingOk && !s.fex cl.op.tag (cl.cur / c.perFile)) = false := by
    cases hm : cl.op.missingOk with
    | false => rfl
    | true => rw [hcall.ok.2 hm _ hcall.at_.1 hcall.at_.2.1]; rfl
  unfold doLoad
  simp only [hfe, Bool.false_eq_true, if_false]
  have hc := h.cache.loaded hp hpc (setFex s.fex cl.op.tag (cl.cur / c.perFile))
  have h1 := h.quiet hc rfl (fun t n => setFex_mono t n) (by
    intro q cl' hq
    rcases get_set_cases hq with ⟨rfl, e⟩ | ⟨hn, hq'⟩
    · cases e; exact ⟨cl, hp, rfl, rfl, rfl, rfl⟩
    · exact ⟨cl', hq', rfl, rfl, rfl, rfl⟩)
  have h2 := Inv.copy (cl := { cl with pc := .waitHit j }) h1 (get_set_same hp) rfl (by
    show (setBuf _ _ _ _ (cl.cur % c.groups) _).lock = none
    rw [setBuf_same])
  refine Eq.mp (congrArg _ ?_) h2
  unfold Verif.OBuffers.copy
  simp only [setBuf_same, setBuf_setBuf]
  split <;> exact next_procs (c := c) (p := p) (cl := cl)
    (s' := { s with bufs := _, fex := _ }) rfl rfl rfl

end Verif.OBuffers
