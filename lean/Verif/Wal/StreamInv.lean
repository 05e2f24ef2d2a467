import Verif.Wal.StreamLemmas
/-! The invariant relating a backend's WAL buffer, the containers it emitted and
the operations it issued. -/

namespace Verif.Wal

/-- Persistent reader context after a list of records. -/
def ctxOf (c : Ctx) (rs : List Rec) : Ctx := rs.foldl Ctx.after c

/-- Observations made on the records of a container, in order. -/
def obs {α} (f : Ctx → Rec → Option α) : Ctx → List Rec → List α
  | _, [] => []
  | c, r :: rs => (f (c.after r) r).toList ++ obs f (c.after r) rs

/-- Observation: row changes. -/
def chgF (c : Ctx) (r : Rec) : Option Change := Delivered.change ⟨0, c, r⟩
/-- Observation: transactional events. -/
def evF (c : Ctx) (r : Rec) : Option Event := Delivered.event ⟨0, c, r⟩

theorem obs_append {α} (f : Ctx → Rec → Option α) (c xs ys) :
    obs f c (xs ++ ys) = obs f c xs ++ obs f (ctxOf c xs) ys := by
  induction xs generalizing c with
  | nil => rfl
  | cons x xs ih => simp [obs, ih, ctxOf]

theorem ctxOf_append (c xs r) : ctxOf c (xs ++ [r]) = (ctxOf c xs).after r := by
  simp [ctxOf]

theorem expected_obs {α} (f : Ctx → Rec → Option α) (off c rs) :
    (expected 19 off c rs).filterMap (fun d => f d.ctx d.record) = obs f c rs := by
  induction rs generalizing off c with
  | nil => rfl
  | cons r rs ih =>
    simp only [expected, asVersion_current, List.filterMap_cons, obs, ih]
    cases f (c.after r) r <;> rfl

theorem encRecs_append (v xs ys) : encRecs v (xs ++ ys) = encRecs v xs ++ encRecs v ys := by
  induction xs with
  | nil => rfl
  | cons x xs ih => simp [encRecs, ih]

theorem writable_append (v : Nat) (rs : List Rec) (r : Rec) : ∀ (c : Ctx),
    WritableSeq v c.relreplident rs → r.Writable v (ctxOf c rs).relreplident →
    WritableSeq v c.relreplident (rs ++ [r]) := by
  induction rs with
  | nil => intro c _ h; exact ⟨h, trivial⟩
  | cons x xs ih =>
    intro c hw h
    refine ⟨hw.1, ?_⟩
    have hx : identityAfter c.relreplident x = (c.after x).relreplident := by cases x <;> rfl
    rw [hx]
    exact ih (c.after x) (by rw [← hx]; exact hw.2) h

/-- Row events among events. -/
def rows (es : List Event) : List Event := es.filter (·.2.isRow)

theorem rows_append (a b) : rows (a ++ b) = rows a ++ rows b := List.filter_append ..

/-- Row changes among changes. -/
def rowsC (es : List Change) : List Change := es.filter (·.isRow)

theorem rowsC_append (a b) : rowsC (a ++ b) = rowsC a ++ rowsC b := List.filter_append ..

/-- Records that must not get lost: row changes and transaction ends. -/
def Rec.key (r : Rec) : Bool := r.isRow || r.isEnd

/-- Key events among events. -/
def keys (es : List Event) : List Event := es.filter (·.2.key)

theorem keys_append (a b) : keys (a ++ b) = keys a ++ keys b := List.filter_append ..

/-- No record of the list is a key record. -/
def NoKey (rs : List Rec) : Prop := ∀ r ∈ rs, r.key = false

theorem NoKey.nil : NoKey [] := by intro r hr; cases hr

theorem NoKey.snoc {rs r} (h : NoKey rs) (hr : r.key = false) : NoKey (rs ++ [r]) := by
  intro x hx
  rcases List.mem_append.mp hx with hx | hx
  · exact h x hx
  · simp at hx; subst hx; exact hr

theorem NoKey.spec {rs} (h : NoKey rs) (c) :
    rowsC (obs chgF c rs) = [] ∧ rows (obs evF c rs) = [] ∧ keys (obs evF c rs) = [] := by
  induction rs generalizing c with
  | nil => exact ⟨rfl, rfl, rfl⟩
  | cons r rs ih =>
    obtain ⟨h1, h2, h3⟩ := ih (fun x hx => h x (List.mem_cons_of_mem _ hx)) (c.after r)
    have hr := h r (List.mem_cons_self ..)
    simp only [obs, rowsC_append, rows_append, keys_append, h1, h2, h3, List.append_nil]
    cases r <;> first | exact ⟨rfl, rfl, rfl⟩ | cases hr

/-- The invariant. `p` switches on the part about transaction identity, which
needs that no transaction ends with only non-row records. -/
structure J (p : Prop) (s : LW) (cs : List (Header × List Rec)) (rs : List Rec)
    (cur : Option UInt64) (any : Bool) (last : Option (Oids × UInt8 × UInt8))
    (ich : List Change) (iev irq : List Event) : Prop where
  buf : s.buf = encRecs 19 rs
  out : s.out = cs.map fun q => encContainer q.1 q.2
  hdr : ∀ q ∈ cs, q.1.version = 19 ∧ WritableSeq 19 replDefault q.2
  wr : WritableSeq 19 replDefault rs
  rel : (s.oids = ⟨0, 0, 0⟩ ∧ s.ixType = 0) ∨
    ((ctxOf {} rs).oids = s.oids ∧ (ctxOf {} rs).treeType = s.ixType ∧
      last = some (s.oids, s.ixType, (ctxOf {} rs).relreplident))
  chg : (cs.flatMap (fun q => obs chgF {} q.2) ++ obs chgF {} rs).Sublist ich
  rwc : rowsC (cs.flatMap (fun q => obs chgF {} q.2) ++ obs chgF {} rs) = rowsC ich
  mat : ¬ NoKey rs → s.material = true
  ev : p → (cs.flatMap (fun q => obs evF {} q.2) ++ obs evF {} rs).Sublist iev
  rw : p → rows (cs.flatMap (fun q => obs evF {} q.2) ++ obs evF {} rs) = rows iev
  req : p → irq.Sublist (keys (cs.flatMap (fun q => obs evF {} q.2) ++ obs evF {} rs))
  xid : p → s.hasXid = true → rs ≠ [] ∧ any = true ∧ cur = some (ctxOf {} rs).oxid

namespace J
variable {p : Prop} {s : LW} {cs : List (Header × List Rec)} {rs : List Rec}
  {cur : Option UInt64} {any : Bool} {last : Option (Oids × UInt8 × UInt8)}
  {ich : List Change} {iev irq : List Event}

/-- Emitting the buffer as a container and resetting it. -/
theorem flush (h : J p s cs rs cur any last ich iev irq) (e : Env) (b : Bool) (s' : LW)
    (h1 : s'.buf = []) (h2 : s'.out = s.out ++ [container e b s.buf])
    (h3 : s'.oids = ⟨0, 0, 0⟩) (h4 : s'.ixType = 0) (h5 : s'.hasXid = false) (last') (cur') (any') :
    ∃ cs', J p s' cs' [] cur' any' last' ich iev irq := by
  refine ⟨cs ++ [(⟨19, if b then some (e.stopTime, e.heapXid) else none, e.origin⟩, rs)], ?_⟩
  constructor
  · exact h1
  · rw [h2, h.out, List.map_append]
    simp [container, encContainer, h.buf]
  · intro q hq
    rcases List.mem_append.mp hq with hq | hq
    · exact h.hdr q hq
    · simp at hq; subst hq; exact ⟨rfl, h.wr⟩
  · trivial
  · exact Or.inl ⟨h3, h4⟩
  · have := h.chg; simpa [obs] using this
  · have := h.rwc; simpa [obs] using this
  · intro hc; exact absurd NoKey.nil hc
  · intro hp; have := h.ev hp; simpa [obs] using this
  · intro hp; have := h.rw hp; simpa [obs] using this
  · intro hp; have := h.req hp; simpa [obs] using this
  · intro hp hx; rw [h5] at hx; cases hx

theorem flushIfNeeded (h : J p s cs rs cur any last ich iev irq) (e : Env) (n : Nat) :
    ∃ cs' rs', J p (s.flushIfNeeded e n) cs' rs' cur any last ich iev irq ∧
      (NoKey rs → NoKey rs') := by
  unfold LW.flushIfNeeded
  split
  · obtain ⟨cs', h'⟩ := h.flush e false
      { s.reset with out := s.out ++ [container e false s.buf], material := true }
      rfl rfl rfl rfl rfl last cur any
    exact ⟨cs', [], h', fun _ => NoKey.nil⟩
  · exact ⟨cs, rs, h, id⟩

theorem nil_of_buf {rs : List Rec} (h : encRecs 19 rs = []) : rs = [] := by
  cases rs with
  | nil => rfl
  | cons r rs => simp [encRecs, encRec] at h

/-- With an empty buffer everything that depends on the current transaction is void. -/
theorem ofEmpty (h : J p s cs [] cur any last ich iev irq) (cur') (any') (last') :
    J p s cs [] cur' any' last' ich iev irq :=
  { h with
    rel := by
      rcases h.rel with hr | ⟨h1, h2, _⟩
      · exact Or.inl hr
      · exact Or.inl ⟨h1.symm, h2.symm⟩
    xid := fun hp hx => absurd rfl (h.xid hp hx).1 }

theorem flushNonEmpty (h : J p s cs rs cur any last ich iev irq) (e : Env) (cur') (any') (last') :
    ∃ cs', J p (s.flushNonEmpty e) cs' [] cur' any' last' ich iev irq := by
  unfold LW.flushNonEmpty
  split
  · rename_i hb
    have : rs = [] := nil_of_buf (by rw [← h.buf, hb])
    subst this
    exact ⟨cs, h.ofEmpty _ _ _⟩
  · exact h.flush e false _ rfl rfl rfl rfl rfl last' cur' any'

/-- Appending a record. -/
theorem put (h : J p s cs rs cur any last ich iev irq) (r : Rec)
    (hw : r.Writable 19 (ctxOf {} rs).relreplident) (s' : LW)
    (hb : s'.buf = s.buf ++ encRec 19 r) (ho : s'.out = s.out)
    (hm : s.material = true → s'.material = true) (hm2 : r.key = true → s'.material = true)
    {last' cur' any' ev1} (rq1 : List Event) (hrq : rq1.Sublist (keys ev1))
    (hrel : (s'.oids = ⟨0, 0, 0⟩ ∧ s'.ixType = 0) ∨
      (((ctxOf {} rs).after r).oids = s'.oids ∧ ((ctxOf {} rs).after r).treeType = s'.ixType ∧
      last' = some (s'.oids, s'.ixType, ((ctxOf {} rs).after r).relreplident)))
    (hev : p → (evF ((ctxOf {} rs).after r) r).toList = ev1)
    (hx : p → s'.hasXid = true →
      any' = true ∧ cur' = some ((ctxOf {} rs).after r).oxid) :
    J p s' cs (rs ++ [r]) cur' any' last'
      (ich ++ (chgF ((ctxOf {} rs).after r) r).toList) (iev ++ ev1) (irq ++ rq1) := by
  constructor
  · rw [hb, h.buf, encRecs_append]; simp [encRecs]
  · rw [ho, h.out]
  · exact h.hdr
  · exact writable_append 19 rs r {} h.wr hw
  · rw [ctxOf_append]; exact hrel
  · rw [obs_append, ← List.append_assoc]
    have : obs chgF (ctxOf {} rs) [r] = (chgF ((ctxOf {} rs).after r) r).toList := by simp [obs]
    rw [this]
    exact h.chg.append (List.Sublist.refl _)
  · rw [obs_append, ← List.append_assoc, rowsC_append, h.rwc, rowsC_append]
    have : obs chgF (ctxOf {} rs) [r] = (chgF ((ctxOf {} rs).after r) r).toList := by simp [obs]
    rw [this]
  · intro hc
    by_cases hr : NoKey rs
    · apply hm2
      by_cases hk : r.key = true
      · exact hk
      · exact absurd (hr.snoc (by simpa using hk)) hc
    · exact hm (h.mat hr)
  · intro hp
    rw [obs_append, ← List.append_assoc]
    have : obs evF (ctxOf {} rs) [r] = ev1 := by rw [← hev hp]; simp [obs]
    rw [this]
    exact (h.ev hp).append (List.Sublist.refl _)
  · intro hp
    rw [obs_append, ← List.append_assoc, rows_append, h.rw hp, rows_append]
    have : obs evF (ctxOf {} rs) [r] = ev1 := by rw [← hev hp]; simp [obs]
    rw [this]
  · intro hp
    rw [obs_append, ← List.append_assoc, keys_append]
    have : obs evF (ctxOf {} rs) [r] = ev1 := by rw [← hev hp]; simp [obs]
    rw [this]
    exact (h.req hp).append hrq
  · intro hp hx'
    rw [ctxOf_append]
    exact ⟨by simp, hx hp hx'⟩

/-- Appending the XID record if the container lacks one; afterwards the container
identifies the transaction. -/
theorem addXidIfNeeded (h : J p s cs rs cur any last ich iev irq) (e : Env)
    (hown : cur = none ∨ cur = some e.oxid) :
    ∃ rs', J p (s.addXidIfNeeded e) cs rs' (some e.oxid) true last ich iev irq ∧
      (s.addXidIfNeeded e).hasXid = true ∧ (s.addXidIfNeeded e).material = s.material ∧
      (NoKey rs → NoKey rs') ∧ (p → (ctxOf {} rs').oxid = e.oxid) := by
  unfold LW.addXidIfNeeded
  split
  · rename_i hx
    have hcx : p → (ctxOf {} rs).oxid = e.oxid := by
      intro hp
      have := (h.xid hp hx).2.2
      rcases hown with ho | ho
      · rw [ho] at this; cases this
      · rw [ho] at this; injection this with this; exact this.symm
    refine ⟨rs, { h with xid := ?_ }, hx, rfl, id, hcx⟩
    intro hp hx
    exact ⟨(h.xid hp hx).1, rfl, by rw [hcx hp]⟩
  · refine ⟨rs ++ [.xid e.oxid e.lxid e.heapXid], ?_, rfl, rfl, ?_, ?_⟩
    · have := h.put (.xid e.oxid e.lxid e.heapXid) trivial (s.addXid e) rfl rfl
        id (by intro hc; cases hc) (last' := last) (cur' := some e.oxid) (any' := true) (ev1 := [])
        [] (List.nil_sublist _)
        h.rel (fun _ => rfl) (fun _ _ => ⟨rfl, rfl⟩)
      simpa [chgF, Delivered.change] using this
    · intro hk; exact hk.snoc rfl
    · intro _; rw [ctxOf_append]; rfl

/-- Appending a record that is no row change and does not touch the relation. -/
theorem putOther (h : J p s cs rs cur any last ich iev irq) (r : Rec) {ox : UInt64}
    (hw : ∀ rr, r.Writable 19 rr)
    (hn : ∀ c : Ctx, (c.after r).oids = c.oids ∧ (c.after r).treeType = c.treeType ∧
      (c.after r).relreplident = c.relreplident ∧ (c.after r).oxid = c.oxid)
    (hch : ∀ c, chgF c r = none) (hm : r.key = true → s.material = true)
    (rq1 : List Event) (hrq : rq1.Sublist (keys (if r.transactional then [(ox, r)] else []))) (hox : r.transactional = true → p → (ctxOf {} rs).oxid = ox) :
    J p (s.put r) cs (rs ++ [r]) cur any last ich
        (iev ++ if r.transactional then [(ox, r)] else []) (irq ++ rq1) ∧
      (r.key = false → NoKey rs → NoKey (rs ++ [r])) ∧ (ctxOf {} (rs ++ [r])).oxid = (ctxOf {} rs).oxid := by
  obtain ⟨n1, n2, n3, n4⟩ := hn (ctxOf {} rs)
  refine ⟨?_, fun hk hn => hn.snoc hk, by rw [ctxOf_append, n4]⟩
  have := h.put r (hw _) (s.put r) rfl rfl id hm
    (last' := last) (cur' := cur) (any' := any)
    (ev1 := if r.transactional then [(ox, r)] else []) rq1 hrq
    (by
      rw [n1, n2, n3]; exact h.rel)
    (by
      intro hp
      simp only [evF, Delivered.event, n4]
      split
      · rename_i ht; rw [hox ht hp]; rfl
      · rfl)
    (by
      intro hp hx
      rw [n4]
      exact ⟨(h.xid hp hx).2.1, (h.xid hp hx).2.2⟩)
  simpa [hch] using this

end J

/-- The suspended transactions and the saved flags agree. -/
def Aligned : List (Option UInt64 × Bool × Bool) → List Bool → Prop
  | [], [] => True
  | (_, _, r) :: st, m :: ms => (r = true → m = true) ∧ Aligned st ms
  | _, _ => False

/-- The whole invariant. -/
def Inv (p : Prop) (b : Backend) (g : Ghost) (ich : List Change) (iev irq : List Event) : Prop :=
  ∃ cs rs, J p b.lw cs rs g.cur g.any g.last ich iev irq ∧
    (g.cur = none → NoKey rs) ∧ (g.row = true → b.lw.material = true) ∧
    Aligned g.stack b.saved

theorem flushIfNeeded_material (s : LW) (e n) :
    s.material = true → (s.flushIfNeeded e n).material = true := by
  intro h; unfold LW.flushIfNeeded; split
  · rfl
  · exact h

theorem put_material (s : LW) (r) : (s.put r).material = s.material := rfl

theorem J.finish {p s cs rs cur any last ich iev irq} (h : J p s cs rs cur any last ich iev irq) (e : Env)
    (commit a : Bool) (n : Nat) (hmat : s.material = true) (need : Bool) (hown : cur = none ∨ cur = some e.oxid)
    (cur' any' last') :
    ∃ cs', J p (((s.flushIfNeeded e n).addXidIfNeeded e).addFinish e commit |>.flush e a) cs' []
      cur' any' last' ich
      (iev ++ [(e.oxid, if commit then .commit e.runXmin e.csn else .rollback e.runXmin e.csn)])
      (irq ++ if need then
        [(e.oxid, if commit then .commit e.runXmin e.csn else .rollback e.runXmin e.csn)]
        else []) := by
  obtain ⟨cs1, rs1, h1, _⟩ := h.flushIfNeeded e n
  obtain ⟨rs2, h2, _, hm2, _, hox⟩ := h1.addXidIfNeeded e hown
  rw [flushIfNeeded_material s e n hmat] at hm2
  generalize ((s.flushIfNeeded e n).addXidIfNeeded e) = s2 at *
  have h3 : ∃ rs3, J p (if (commit && e.remoteApply) = true then s2.put .replayFeedback else s2)
      cs1 rs3 (some e.oxid) true last ich iev irq ∧ (p → (ctxOf {} rs3).oxid = e.oxid) := by
    split
    · obtain ⟨h3, _, h5⟩ := h2.putOther .replayFeedback (ox := 0) (fun _ => trivial)
        (fun _ => ⟨rfl, rfl, rfl, rfl⟩) (fun _ => rfl) (by intro hc; cases hc) []
        (List.nil_sublist _) (by intro hc; cases hc)
      refine ⟨_, ?_, fun hp => by rw [h5]; exact hox hp⟩
      simpa [Rec.transactional] using h3
    · exact ⟨rs2, h2, hox⟩
  obtain ⟨rs3, h3, hox3⟩ := h3
  have h4 : ∃ rs4, J p (((if (commit && e.remoteApply) = true then s2.put .replayFeedback else s2)).put
      (if commit then .commit e.runXmin e.csn else .rollback e.runXmin e.csn)) cs1 rs4
      (some e.oxid) true last ich (iev ++ [(e.oxid, if commit then .commit e.runXmin e.csn
        else .rollback e.runXmin e.csn)])
      (irq ++ if need then
        [(e.oxid, if commit then .commit e.runXmin e.csn else .rollback e.runXmin e.csn)]
        else []) := by
    have hm3 : (if (commit && e.remoteApply) = true then s2.put .replayFeedback else s2).material
        = true := by
      split <;> exact hm2
    cases commit
    · obtain ⟨h4, _, _⟩ := h3.putOther (.rollback e.runXmin e.csn) (ox := e.oxid) (fun _ => trivial)
        (fun _ => ⟨rfl, rfl, rfl, rfl⟩) (fun _ => rfl) (fun _ => hm3)
        (if need then [(e.oxid, .rollback e.runXmin e.csn)] else [])
        (by cases need
            · exact List.nil_sublist _
            · exact List.Sublist.refl _) (fun _ => hox3)
      exact ⟨_, h4⟩
    · obtain ⟨h4, _, _⟩ := h3.putOther (.commit e.runXmin e.csn) (ox := e.oxid) (fun _ => trivial)
        (fun _ => ⟨rfl, rfl, rfl, rfl⟩) (fun _ => rfl) (fun _ => hm3)
        (if need then [(e.oxid, .commit e.runXmin e.csn)] else [])
        (by cases need
            · exact List.nil_sublist _
            · exact List.Sublist.refl _) (fun _ => hox3)
      exact ⟨_, h4⟩
  obtain ⟨rs4, h4⟩ := h4
  exact h4.flush e a _ rfl rfl rfl rfl rfl last' cur' any'

/-- Dropping the buffer of a transaction that logged no row change. -/
theorem J.discard {p s cs rs cur any last ich iev irq} (h : J p s cs rs cur any last ich iev irq) (ev1)
    (hm : s.material = false) (hx : p → s.hasXid = false) (hr : rows ev1 = [])
    (cur' any' last') :
    J p s.discard cs [] cur' any' last' ich (iev ++ ev1) irq := by
  have hno : NoKey rs := by
    by_cases hc : NoKey rs
    · exact hc
    · have := h.mat hc; rw [hm] at this; cases this
  constructor
  · rfl
  · exact h.out
  · exact h.hdr
  · trivial
  · exact Or.inl ⟨rfl, rfl⟩
  · have h1 := (List.sublist_append_left (cs.flatMap fun q => obs chgF {} q.2) (obs chgF {} rs))
    simpa [obs] using h1.trans h.chg
  · have := h.rwc
    rw [rowsC_append, (hno.spec {}).1] at this
    simpa [obs] using this
  · intro hc; exact absurd NoKey.nil hc
  · intro hp
    have := h.ev hp
    have h1 := (List.sublist_append_left (cs.flatMap fun q => obs evF {} q.2) (obs evF {} rs))
    simpa [obs] using (h1.trans this).trans (List.sublist_append_left iev ev1)
  · intro hp
    have := h.rw hp
    rw [rows_append, (hno.spec {}).2.1] at this
    rw [rows_append, rows_append, hr, ← this]; simp [obs, rows]
  · intro hp
    have := h.req hp
    rw [keys_append, (hno.spec {}).2.2] at this
    simpa [obs] using this
  · intro hp hx'
    exact absurd (hx hp) (by rw [show s.hasXid = true from hx']; decide)

/-- RELATION (and RELREPLIDENT) when the relation changed: afterwards the reader
knows the target tree and its replica identity. -/
theorem J.toRel {p s cs rs cur any last ich iev irq} (h : J p s cs rs cur any last ich iev irq) (e : Env)
    (t : Oids × UInt8) (spc ver bver : UInt32) (rr : UInt8) (ht : t.1.datoid ≠ 0)
    (hid : ∀ rr', last = some (t.1, t.2, rr') → rr' = rr) :
    ∃ s' rs', (if s.relChanged t = true then
        (if (rr != replDefault) = true then (s.addRel e t spc ver bver).put (.relreplident rr 0)
          else s.addRel e t spc ver bver)
      else s) = s' ∧ s'.material = s.material ∧ s'.hasXid = s.hasXid ∧ s'.oids = t.1 ∧
      s'.ixType = t.2 ∧
      J p s' cs rs' cur any (some (t.1, t.2, rr)) ich iev irq ∧ (NoKey rs → NoKey rs') ∧
      (ctxOf {} rs').oxid = (ctxOf {} rs).oxid ∧ (ctxOf {} rs').oids = t.1 ∧
      (ctxOf {} rs').treeType = t.2 ∧ (ctxOf {} rs').relreplident = rr := by
  by_cases hc : s.relChanged t = true
  · simp only [hc, if_true]
    have h1 := h.put (.relation t.2 t.1 (some ⟨e.runXmin, e.csn, e.cid⟩) ver bver spc)
      (Or.inr rfl) (s.addRel e t spc ver bver) rfl rfl id (by intro hc; cases hc)
      (last' := some (t.1, t.2, replDefault)) (cur' := cur) (any' := any) (ev1 := [])
      [] (List.nil_sublist _)
      (Or.inr ⟨rfl, rfl, rfl⟩) (fun _ => rfl)
      (fun hp hx => ⟨(h.xid hp hx).2.1, (h.xid hp hx).2.2⟩)
    have hch : ∀ c, chgF c (.relation t.2 t.1 (some ⟨e.runXmin, e.csn, e.cid⟩) ver bver spc) = none :=
      fun _ => rfl
    simp only [hch, Option.toList_none, List.append_nil] at h1
    by_cases hr : (rr != replDefault) = true
    · simp only [hr, if_true]
      have h2 := h1.put (.relreplident rr 0)
        trivial ((s.addRel e t spc ver bver).put (.relreplident rr 0)) rfl rfl id
        (by intro hc; cases hc)
        (last' := some (t.1, t.2, rr)) (cur' := cur) (any' := any) (ev1 := [])
        [] (List.nil_sublist _)
        (by rw [ctxOf_append]; exact Or.inr ⟨rfl, rfl, rfl⟩) (fun _ => rfl)
        (fun hp hx => ⟨(h1.xid hp hx).2.1, (h1.xid hp hx).2.2⟩)
      have hch2 : ∀ c, chgF c (.relreplident rr 0) = none := fun _ => rfl
      simp only [hch2, Option.toList_none, List.append_nil] at h2
      refine ⟨_, _, rfl, rfl, rfl, rfl, rfl, h2, ?_, ?_, ?_, ?_, ?_⟩
      · intro hk; exact (hk.snoc rfl).snoc rfl
      all_goals rw [ctxOf_append, ctxOf_append]; rfl
    · simp only [hr, if_false, Bool.false_eq_true]
      have hrr : rr = replDefault := by simpa using hr
      subst hrr
      refine ⟨_, _, rfl, rfl, rfl, rfl, rfl, h1, ?_, ?_, ?_, ?_, ?_⟩
      · intro hk; exact hk.snoc rfl
      all_goals rw [ctxOf_append]; rfl
  · simp only [hc, if_false, Bool.false_eq_true]
    have hoi : s.oids = t.1 ∧ s.ixType = t.2 := by
      simp only [LW.relChanged, Bool.or_eq_true, bne_iff_ne, not_or, ne_eq, Decidable.not_not] at hc
      exact ⟨hc.1, hc.2.symm⟩
    rcases h.rel with hr | ⟨hr1, hr2, hr3⟩
    · exfalso; apply ht; rw [← hoi.1, hr.1]
    · rw [hoi.1, hoi.2] at hr3
      have hrr := hid _ hr3
      refine ⟨_, rs, rfl, rfl, rfl, hoi.1, hoi.2, ?_, id, rfl, ?_, ?_, hrr⟩
      · rw [← hrr, ← hr3]; exact h
      · rw [hr1, hoi.1]
      · rw [hr2, hoi.2]

theorem Inv.finish {p b g ich iev irq} (h : Inv p b g ich iev irq) (e : Env) (commit a : Bool)
    (hown : g.owns e) (hne : p → g.any = true → g.row = true) :
    ∃ s', (if commit then b.lw.commit e a else b.lw.rollback e a) = s' ∧
    ∃ cs', ∀ cur' any' last', J p s' cs' [] cur' any' last' ich
      (iev ++ [(e.oxid, if commit then .commit e.runXmin e.csn else .rollback e.runXmin e.csn)])
      (irq ++ if g.row then
        [(e.oxid, if commit then .commit e.runXmin e.csn else .rollback e.runXmin e.csn)]
        else []) := by
  obtain ⟨cs, rs, hj, hcur, hrow, hal⟩ := h
  refine ⟨_, rfl, ?_⟩
  by_cases hm : b.lw.material = true
  · cases commit
    · simp only [LW.rollback, hm, Bool.not_true, Bool.false_eq_true, if_false]
      obtain ⟨cs', h'⟩ := hj.finish e false (!a) 17 hm g.row hown none false none
      exact ⟨cs', fun _ _ _ =>
        { (h'.ofEmpty _ _ _) with mat := fun hc => absurd NoKey.nil hc }⟩
    · simp only [LW.commit, hm, Bool.not_true, Bool.false_eq_true, if_false, if_true]
      obtain ⟨cs', h'⟩ := hj.finish e true (!a) (17 + if e.remoteApply then 1 else 0) hm g.row hown
        none false none
      exact ⟨cs', fun _ _ _ =>
        { (h'.ofEmpty _ _ _) with mat := fun hc => absurd NoKey.nil hc }⟩
  · have hm' : b.lw.material = false := by simpa using hm
    have hx : p → b.lw.hasXid = false := by
      intro hp
      by_cases hx : b.lw.hasXid = true
      · exact absurd (hrow (hne hp (hj.xid hp hx).2.1)) hm
      · simpa using hx
    refine ⟨cs, fun c a l => ?_⟩
    have hd : (if commit = true then b.lw.commit e a else b.lw.rollback e a) = b.lw.discard := by
      cases commit <;> simp [LW.commit, LW.rollback, hm']
    have := hj.discard [(e.oxid, if commit then .commit e.runXmin e.csn
      else .rollback e.runXmin e.csn)] hm' hx (by cases commit <;> rfl) c a l
    have hgr : g.row = false := by
      by_cases hg : g.row = true
      · exact absurd (hrow hg) hm
      · simpa using hg
    cases commit <;> simpa [LW.commit, LW.rollback, hm', hgr] using this

/-- How WAL names trees, model and spec. -/
theorem target_loggedAs (d : Desc) : d.target = d.loggedAs := by
  unfold Desc.target Desc.loggedAs sysTreesDatoid oIndexPrimary
  by_cases h1 : d.type = 3
  · by_cases h2 : d.oids.datoid = 1
    · simp [h1, h2]
    · simp [h1, h2]
  · simp [h1]

theorem inv_step {p : Prop} {b : Backend} {g : Ghost} {op : Op} {ich iev irq}
    (h : Inv p b g ich iev irq) (hok : g.ok op)
    (hne : p → g.finishOk op) :
    Inv p (b.step op) (g.step op) (ich ++ op.issues) (iev ++ op.events) (irq ++ op.required g) := by
  cases op with
  | modify e k d t1 t2 rr ver bver =>
    simp only [Backend.step, LW.addModify, Ghost.step, Op.issues, Op.events, Op.required,
      target_loggedAs]
    by_cases hrec : e.inRecovery = true
    · simpa [hrec] using h
    rcases hok with hok | ⟨⟨ht2, hlen, hdat⟩, hown, hid⟩
    · exact absurd hok hrec
    obtain ⟨cs, rs, hj, hcur, hrow, hal⟩ := h
    simp only [hrec, Bool.false_eq_true, if_false]
    generalize (if (rr != replDefault) = true then
      (if b.lw.relChanged d.loggedAs = true then _ else _) + 6 else _) = req
    obtain ⟨cs1, rs1, h1, _⟩ := hj.flushIfNeeded e req
    obtain ⟨rs2, h2, _, _, _, hox⟩ := h1.addXidIfNeeded e hown
    obtain ⟨s3, rs3, h3, _, _, h3o, h3i, hj3, _, h3x, hc1, hc2, hc3⟩ :=
      h2.toRel e d.loggedAs d.targetSpc ver bver rr hdat hid
    rw [h3]
    have h4 := hj3.put (.modify k t1 t2)
      (by
        rw [hc3]
        refine ⟨by omega, ?_, ht2⟩
        intro t ht; subst ht; simp only [optLen] at hlen; omega)
      { s3.put (.modify k t1 t2) with material := true } rfl rfl (fun _ => rfl) (fun _ => rfl)
      (last' := some (d.loggedAs.1, d.loggedAs.2, rr)) (cur' := some e.oxid) (any' := true)
      (ev1 := [(e.oxid, .modify k t1 t2)]) [(e.oxid, .modify k t1 t2)] (List.Sublist.refl _)
      (Or.inr ⟨by simp only [LW.put]; rw [h3o]; exact hc1, by simp only [LW.put]; rw [h3i]; exact hc2, by
        simp only [LW.put]; rw [h3o, h3i]; congr 3; exact hc3.symm⟩)
      (fun hp => by
        have : ((ctxOf {} rs3).after (.modify k t1 t2)).oxid = e.oxid := by
          rw [← hox hp, ← h3x]; rfl
        simp [evF, Delivered.event, Rec.transactional, this])
      (fun hp _ => ⟨rfl, by
        have : ((ctxOf {} rs3).after (.modify k t1 t2)).oxid = e.oxid := by
          rw [← hox hp, ← h3x]; rfl
        rw [this]⟩)
    refine ⟨cs1, rs3 ++ [.modify k t1 t2], ?_, ?_, ?_, hal⟩
    · have hcc : (chgF ((ctxOf {} rs3).after (.modify k t1 t2)) (.modify k t1 t2)).toList =
        [⟨d.loggedAs.1, d.loggedAs.2, .row k t1 t2⟩] := by
        rw [← hc1, ← hc2]; rfl
      rw [hcc] at h4
      exact h4
    · intro hc; cases hc
    · intro _; rfl
  | bridgeErase e d ho hi lo pos ver bver =>
    simp only [Backend.step, LW.addBridgeErase, Ghost.step, Op.issues, Op.events, Op.required,
      List.append_nil, target_loggedAs]
    by_cases hrec : e.inRecovery = true
    · simpa [hrec] using h
    rcases hok with hok | ⟨hdat, hown, hid⟩
    · exact absurd hok hrec
    obtain ⟨cs, rs, hj, hcur, hrow, hal⟩ := h
    simp only [hrec, Bool.false_eq_true, if_false]
    generalize (if b.lw.relChanged d.loggedAs = true then 7 + 46 else 7) = req
    obtain ⟨cs1, rs1, h1, hn1⟩ := hj.flushIfNeeded e req
    have hm1 := flushIfNeeded_material b.lw e req
    have h2 : ∃ s2 rs2, (if ho = true then (b.lw.flushIfNeeded e req).addXidIfNeeded e
          else b.lw.flushIfNeeded e req) = s2 ∧
        s2.material = (b.lw.flushIfNeeded e req).material ∧
        J p s2 cs1 rs2 (if ho = true then some e.oxid else g.cur) (g.any || ho) g.last ich iev irq ∧
        (NoKey rs1 → NoKey rs2) := by
      cases ho
      · refine ⟨_, rs1, rfl, rfl, ?_, id⟩
        simpa using h1
      · obtain ⟨rs2, h2, _, h2m, h2c, hox⟩ := h1.addXidIfNeeded e hown
        refine ⟨_, rs2, rfl, h2m, ?_, h2c⟩
        simpa using h2
    obtain ⟨s2, rs2, hs2, hm2, h2, hn2⟩ := h2
    rw [hs2]
    obtain ⟨s3, rs3, h3, hm3, _, h3o, h3i, hj3, hn3, h3x, hc1, hc2, hc3⟩ :=
      h2.toRel e d.loggedAs d.targetSpc ver bver replDefault hdat hid
    have hbd : (replDefault != replDefault) = false := by decide
    simp only [hbd, Bool.false_eq_true, if_false] at h3
    rw [h3]
    have h4 := hj3.put (.bridgeErase hi lo pos) trivial (s3.put (.bridgeErase hi lo pos)) rfl rfl
      id (by intro hc; cases hc)
      (last' := some (d.loggedAs.1, d.loggedAs.2, replDefault))
      (cur' := if ho = true then some e.oxid else g.cur) (any' := g.any || ho)
      (ev1 := []) [] (List.nil_sublist _)
      (Or.inr ⟨by simp only [LW.put]; rw [h3o]; exact hc1, by simp only [LW.put]; rw [h3i]; exact hc2, by
        simp only [LW.put]; rw [h3o, h3i]; congr 3; exact hc3.symm⟩)
      (fun _ => rfl) (fun hp hx => (hj3.xid hp hx).2)
    have hcc : (chgF ((ctxOf {} rs3).after (.bridgeErase hi lo pos)) (.bridgeErase hi lo pos)).toList =
        [⟨d.loggedAs.1, d.loggedAs.2, .erase hi lo pos⟩] := by
      rw [← hc1, ← hc2]; rfl
    rw [hcc] at h4
    refine ⟨cs1, rs3 ++ [.bridgeErase hi lo pos], ?_, ?_, ?_, hal⟩
    · simpa using h4
    · intro hc
      have : NoKey rs1 := by
        apply hn1
        cases ho
        · exact hcur hc
        · cases hc
      exact (hn3 (hn2 this)).snoc rfl
    · intro hr
      simp only [put_material, hm3, hm2]
      exact hm1 (hrow hr)
  | plain e q =>
    obtain ⟨cs, rs, hj, hcur, hrow, hal⟩ := h
    simp only [Backend.step, LW.addPlain, Ghost.step, Op.issues, Op.events, Op.required, List.append_nil]
    obtain ⟨cs1, rs1, h1, _⟩ := hj.flushIfNeeded e q.size
    have hm1 := flushIfNeeded_material b.lw e q.size
    obtain ⟨rs2, h2, _, hm2, _, hox⟩ := h1.addXidIfNeeded e hok
    have h3 := h2.putOther (q.record e) (ox := e.oxid) (by intro _; cases q <;> trivial)
      (by intro c; cases q <;> exact ⟨rfl, rfl, rfl, rfl⟩) (by intro c; cases q <;> rfl)
      (by intro hc; cases q <;> cases hc) [] (List.nil_sublist _) (fun _ => hox)
    have ht : (q.record e).transactional = true := by cases q <;> rfl
    simp only [ht, if_true, List.append_nil] at h3
    refine ⟨cs1, _, h3.1, ?_, ?_, hal⟩
    · intro hc; cases hc
    · intro hr
      simp only [put_material, hm2]
      exact hm1 (hrow hr)
  | cic e ph o tr tn ver =>
    obtain ⟨cs, rs, hj, hcur, hrow, hal⟩ := h
    simp only [Backend.step, LW.addCic, Ghost.step, Op.issues, Op.events, Op.required, List.append_nil]
    obtain ⟨cs1, rs1, h1, _⟩ := hj.flushIfNeeded e 25
    have hm1 := flushIfNeeded_material b.lw e 25
    obtain ⟨rs2, h2, _, hm2, _, hox⟩ := h1.addXidIfNeeded e hok
    generalize ((b.lw.flushIfNeeded e 25).addXidIfNeeded e) = s2 at *
    have hxx : p → ((ctxOf {} rs2).after (.cic ph o tr tn ver)).oxid = e.oxid := by
      intro hp; rw [← hox hp]; rfl
    have h3 := h2.put (.cic ph o tr tn ver) trivial
      { s2.put (.cic ph o tr tn ver) with ixType := 0, oids := ⟨0, 0, 0⟩ } rfl rfl id
      (by intro hc; cases hc) (last' := none) (cur' := some e.oxid) (any' := true)
      (ev1 := [(e.oxid, .cic ph o tr tn ver)]) [] (List.nil_sublist _) (Or.inl ⟨rfl, rfl⟩)
      (fun hp => by simp [evF, Delivered.event, Rec.transactional, hxx hp])
      (fun hp _ => ⟨rfl, by rw [hxx hp]⟩)
    refine ⟨cs1, rs2 ++ [.cic ph o tr tn ver], ?_, ?_, ?_, hal⟩
    · simpa [chgF, Delivered.change] using h3
    · intro hc; cases hc
    · intro hr
      simp only [put_material, hm2]
      exact hm1 (hrow hr)
  | switchXid e t s =>
    simp only [Backend.step, LW.addSwitch, Ghost.step, Op.issues, Op.events, Op.required, List.append_nil]
    split
    · exact h
    · obtain ⟨cs, rs, hj, hcur, hrow, hal⟩ := h
      have h0 : J p { b.lw with hasSwitch := true } cs rs g.cur g.any g.last ich iev irq :=
        { hj with }
      obtain ⟨cs1, rs1, h1, hn1⟩ := h0.flushIfNeeded e 9
      have hm1 := flushIfNeeded_material { b.lw with hasSwitch := true } e 9
      obtain ⟨h4, hn4, _⟩ := h1.putOther (.switchXid t s) (ox := 0) (fun _ => trivial)
        (fun _ => ⟨rfl, rfl, rfl, rfl⟩) (fun _ => rfl) (by intro hc; cases hc) []
        (List.nil_sublist _) (by intro hc; cases hc)
      refine ⟨cs1, rs1 ++ [.switchXid t s], by simpa [Rec.transactional] using h4, ?_, ?_, hal⟩
      · intro hc; exact hn4 rfl (hn1 (hcur hc))
      · intro hr
        exact hm1 (hrow hr)
  | rbToSp e q =>
    obtain ⟨cs, rs, hj, hcur, hrow, hal⟩ := h
    simp only [Backend.step, LW.addRbToSp, Ghost.step, Op.issues, Op.events, Op.required, List.append_nil]
    have h0 : J p { b.lw with hasXid := false } cs rs g.cur g.any g.last ich iev irq :=
      { hj with xid := by intro _ hc; cases hc }
    obtain ⟨cs1, rs1, h1, _⟩ := h0.flushIfNeeded e 21
    obtain ⟨rs2, h2, _, _, _, hox⟩ := h1.addXidIfNeeded e hok
    obtain ⟨h3, _, _⟩ := h2.putOther (.rbToSp q e.runXmin e.csn) (ox := e.oxid) (fun _ => trivial)
      (fun _ => ⟨rfl, rfl, rfl, rfl⟩) (fun _ => rfl) (by intro hc; cases hc) []
      (List.nil_sublist _) (fun _ => hox)
    simp only [Rec.transactional, if_true, List.append_nil] at h3
    obtain ⟨cs4, h4⟩ := h3.flush e false (LW.flush _ e false) rfl rfl rfl rfl rfl none (some e.oxid) true
    refine ⟨cs4, [], ?_, fun _ => NoKey.nil, fun _ => rfl, hal⟩
    exact { h4 with xid := by intro _ hc; cases hc }
  | commit e =>
    have hal := h.choose_spec.choose_spec.2.2.2
    obtain ⟨s', hs, cs', h'⟩ := h.finish e true false hok hne
    refine ⟨cs', [], ?_, fun _ => NoKey.nil, ?_, hal⟩
    · have : (b.step (.commit e)).lw = s' := by rw [← hs]; rfl
      rw [this]; simpa [Op.issues, Op.events, Op.required] using h' _ _ _
    · intro hc; cases hc
  | rollback e =>
    have hal := h.choose_spec.choose_spec.2.2.2
    obtain ⟨s', hs, cs', h'⟩ := h.finish e false false hok hne
    refine ⟨cs', [], ?_, fun _ => NoKey.nil, ?_, hal⟩
    · have : (b.step (.rollback e)).lw = s' := by rw [← hs]; rfl
      rw [this]; simpa [Op.issues, Op.events, Op.required] using h' _ _ _
    · intro hc; cases hc
  | jointCommit e x sub =>
    obtain ⟨cs, rs, hj, hcur, hrow, hal⟩ := h
    simp only [Backend.step, LW.jointCommit, Ghost.step, Op.issues, Op.events, Op.required, List.append_nil]
    obtain ⟨cs1, rs1, h1, _⟩ := hj.flushIfNeeded e 22
    obtain ⟨rs2, h2, _, _, _, _⟩ := h1.addXidIfNeeded e hok
    obtain ⟨cs3, rs3, h3, _⟩ := h2.flushIfNeeded e 22
    obtain ⟨rs4, h4, _, _, _, hox⟩ := h3.addXidIfNeeded e (Or.inr rfl)
    have h4' : J p { ((((b.lw.flushIfNeeded e 22).addXidIfNeeded e).flushIfNeeded e 22).addXidIfNeeded
        e) with material := true } cs3 rs4 (some e.oxid) true g.last ich iev irq :=
      { h4 with mat := fun _ => rfl }
    obtain ⟨h5, _, _⟩ := h4'.putOther (.jointCommit x e.runXmin e.csn sub) (ox := e.oxid)
      (fun _ => trivial) (fun _ => ⟨rfl, rfl, rfl, rfl⟩) (fun _ => rfl) (fun _ => rfl)
      [(e.oxid, .jointCommit x e.runXmin e.csn sub)] (List.Sublist.refl _) (fun _ => hox)
    simp only [Rec.transactional, if_true] at h5
    obtain ⟨cs6, h6⟩ := h5.flush e false (LW.flush _ e false) rfl rfl rfl rfl rfl none
      (if sub then some e.oxid else none) false
    refine ⟨cs6, [], ?_, fun _ => NoKey.nil, ?_, hal⟩
    · exact { h6 with mat := fun hc => absurd NoKey.nil hc }
    · intro hc; cases hc
  | flush e =>
    obtain ⟨cs, rs, hj, hcur, hrow, hal⟩ := h
    obtain ⟨cs', h'⟩ := hj.flushNonEmpty e g.cur g.any none
    refine ⟨cs', [], by simpa [Op.issues, Op.events, Op.required, Backend.step, Ghost.step] using h', fun _ => NoKey.nil, ?_, hal⟩
    intro hr
    simp only [Backend.step, LW.flushNonEmpty]
    split
    · exact hrow hr
    · rfl
  | startAuto e =>
    obtain ⟨cs, rs, hj, hcur, hrow, hal⟩ := h
    obtain ⟨cs', h'⟩ := hj.flushNonEmpty e none false none
    refine ⟨cs', [], by simpa [Op.issues, Op.events, Op.required, Backend.step, Ghost.step] using h', fun _ => NoKey.nil, ?_, hrow, hal⟩
    intro hr; cases hr
  | endAuto e ho c =>
    obtain ⟨hown, hst⟩ := hok
    have h0 := h
    obtain ⟨cs, rs, hj, hcur, hrow, hal⟩ := h
    simp only [Backend.step, Ghost.step, Op.issues, Op.events, Op.required, List.append_nil]
    match hgs : g.stack, hbs : b.saved with
    | [], _ => exact absurd hgs hst
    | (c', a', r') :: st, [] => rw [hgs, hbs] at hal; exact hal.elim
    | (c', a', r') :: st, m :: ms =>
      rw [hgs, hbs] at hal
      cases ho
      · simp only [Bool.false_eq_true, if_false] at hown ⊢
        have hnil : NoKey rs := hcur hown
        refine ⟨cs, rs, ?_, fun _ => hnil, hal.1, hal.2⟩
        rw [List.append_nil, ite_self, List.append_nil]
        exact { hj with
          mat := fun hc => absurd hnil hc
          xid := fun hp hx => by
            have := (hj.xid hp hx).2.2
            rw [hown] at this; cases this }
      · simp only [if_true] at hown ⊢
        obtain ⟨s', hs, cs', h'⟩ := h0.finish e c true hown (fun hp => hne hp rfl)
        rw [hs]
        refine ⟨cs', [], ?_, fun _ => NoKey.nil, hal.1, hal.2⟩
        exact { (h' c' a' none) with mat := fun hc => absurd NoKey.nil hc }

end Verif.Wal
