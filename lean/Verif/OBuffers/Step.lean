import Verif.OBuffers.Inv

/-!
# The cache invariant is kept
-/

set_option linter.unusedSimpArgs false
set_option linter.unusedVariables false

namespace Verif.OBuffers

variable {c : Cfg} {first : Nat → Nat → Nat} {s : St} {p : Nat} {cl : Call}

theorem setBuf_same {b : Nat → Nat → Buf} {g j : Nat} {v : Buf} : setBuf b g j v g j = v := by
  simp [setBuf]

theorem setBuf_other {b : Nat → Nat → Buf} {g j g' j' : Nat} {v : Buf} (h : ¬ (g' = g ∧ j' = j)) :
    setBuf b g j v g' j' = b g' j' := by
  simp [setBuf, h]

theorem setDisk_same {d : Key → Nat → Nat} {k : Key} {v : Nat → Nat} : setDisk d k v k = v := by
  simp [setDisk]

theorem setDisk_other {d : Key → Nat → Nat} {k k' : Key} {v : Nat → Nat} (h : k' ≠ k) :
    setDisk d k v k' = d k' := by
  simp [setDisk, h]

theorem key_group : cl.key.2 % c.groups = cl.cur % c.groups := rfl

/-- The eviction. -/
theorem Cache.take (h : Cache c first s) (hp : s.procs[p]? = some (some cl)) (hpc : cl.pc = .miss)
    {v : Nat} (hv : v < 4)
    (hw : s.procs.any (waitsIn c (cl.cur % c.groups)) = false)
    (hh : hit s.bufs (cl.cur % c.groups) cl.key = none)
    (hs : slots.any (fun i => (s.bufs (cl.cur % c.groups) i).shadow == some cl.key &&
      (s.bufs (cl.cur % c.groups) i).lock.isSome) = false)
    (hl : (s.bufs (cl.cur % c.groups) v).lock = none) :
    Cache c first (Verif.OBuffers.setPc { s with
        bufs := setBuf s.bufs (cl.cur % c.groups) v
          (⟨some cl.key, (s.bufs (cl.cur % c.groups) v).id, 1, false,
            (s.bufs (cl.cur % c.groups) v).data, some p⟩ : Buf) } p cl
      (.evict v (s.bufs (cl.cur % c.groups) v).dirty (s.bufs (cl.cur % c.groups) v).id)) := by
  have hno : ∀ j, (s.bufs (cl.cur % c.groups) j).id ≠ some cl.key := by
    intro j e
    exact hit_none hh (h.four _ _ _ e) e
  have hnoev : ∀ (q : Nat) (cl' : Call) j, s.procs[q]? = some (some cl') →
      cl'.pc ≠ .evict j true (some cl.key) := by
    intro q cl' j hq e
    obtain ⟨h1, -, h3, -⟩ := h.prev q cl' j cl.key hq e
    have h4 := h.holds q cl' j hq (Or.inr ⟨_, _, e⟩)
    obtain ⟨_, _, _, hj, _⟩ := h.lock _ _ _ h4
    rw [← h3] at h1 h4
    rw [List.any_eq_false] at hs
    have := hs j (by simp [slots]; omega)
    rw [key_group] at h1 h4
    simp [h1, h4] at this
  have hag := h.disk cl.key hno hnoev
  have hwait : ∀ (q : Nat) (cl' : Call) j, s.procs[q]? = some (some cl') → cl'.pc = .waitHit j →
      cl'.cur % c.groups ≠ cl.cur % c.groups := by
    intro q cl' j hq e he
    rw [List.any_eq_false] at hw
    have := hw _ (List.mem_of_getElem? hq)
    obtain ⟨o, cu, pt, ac, pc⟩ := cl'
    simp only at e he
    subst e
    simp [waitsIn, he] at this
  have hnl : ∀ g j, (s.bufs g j).lock ≠ some p := by
    intro g j e
    obtain ⟨cl', hq, _, _, _, _, _, hh⟩ := h.lock g j p e
    rw [hp] at hq; cases hq
    rw [hpc] at hh
    rcases hh with hh | ⟨_, _, hh⟩ <;> cases hh
  refine ⟨?_, ?_, ?_, ?_, ?_, ?_, ?_, ?_, ?_⟩
  · intro q cl' j hq e
    rcases get_set_cases hq with ⟨rfl, e'⟩ | ⟨hn, hq'⟩
    · cases e'; cases e
    · have hne := hwait q cl' j hq' e
      obtain ⟨h1, h2⟩ := h.wait q cl' j hq' e
      refine ⟨h1, ?_⟩
      show (setBuf _ _ _ _ _ _).id = _
      rw [setBuf_other (by rintro ⟨h3, -⟩; exact hne h3)]
      exact h2
  · intro g j q
    show (setBuf _ _ _ _ _ _).lock = _ → _
    intro e
    by_cases hgj : g = cl.cur % c.groups ∧ j = v
    · obtain ⟨rfl, rfl⟩ := hgj
      rw [setBuf_same] at e; cases e
      refine ⟨_, get_set_same hp, rfl, hv, ?_, ?_, hag, Or.inr ⟨_, _, rfl⟩⟩
      · show (setBuf _ _ _ _ _ _).id = _; rw [setBuf_same]; rfl
      · show (setBuf _ _ _ _ _ _).dirty = _; rw [setBuf_same]
    · rw [setBuf_other hgj] at e
      have hqp : q ≠ p := fun h => hnl g j (h ▸ e)
      obtain ⟨cl', h1, h2, h3, h4, h5, h6, h7⟩ := h.lock g j q e
      refine ⟨cl', (get_set_other hqp).trans h1, h2, h3, ?_, ?_, h6, h7⟩
      · show (setBuf _ _ _ _ _ _).id = _; rw [setBuf_other hgj]; exact h4
      · show (setBuf _ _ _ _ _ _).dirty = _; rw [setBuf_other hgj]; exact h5
  · intro q cl' j hq e
    show (setBuf _ _ _ _ _ _).lock = _
    rcases get_set_cases hq with ⟨rfl, e'⟩ | ⟨hn, hq'⟩
    · cases e'
      rcases e with e | ⟨_, _, e⟩ <;> cases e
      show (setBuf _ _ _ _ (cl.cur % c.groups) _).lock = _
      rw [setBuf_same]
    · have hx := h.holds q cl' j hq' e
      rw [setBuf_other]
      · exact hx
      · rintro ⟨h1, h2⟩
        rw [h1, h2, hl] at hx; cases hx
  · intro q cl' j k hq e
    rcases get_set_cases hq with ⟨rfl, e'⟩ | ⟨hn, hq'⟩
    · cases e'
      simp only [Pc.evict.injEq] at e
      obtain ⟨rfl, hd, hid⟩ := e
      have hkg := h.group _ _ _ hid
      refine ⟨?_, ?_, hkg, ?_⟩
      · show (setBuf _ _ _ _ (cl.cur % c.groups) _).shadow = _
        rw [setBuf_same]; exact hid
      · show Agree c (setBuf _ _ _ _ (cl.cur % c.groups) _).data _
        rw [setBuf_same]
        exact (h.data _ _ _ hl hid).1
      · intro j'
        show (setBuf _ _ _ _ _ _).id ≠ _
        by_cases hgj : k.2 % c.groups = cl.cur % c.groups ∧ j' = v
        · rw [hgj.1, hgj.2, setBuf_same]
          intro e2
          cases e2
          exact hno _ hid
        · rw [setBuf_other hgj]
          intro e2
          rw [hkg] at e2 hgj
          exact hgj ⟨rfl, h.uniq _ _ _ _ e2 hid⟩
    · obtain ⟨h1, h2, h3, h4⟩ := h.prev q cl' j k hq' e
      have hx := h.holds q cl' j hq' (Or.inr ⟨_, _, e⟩)
      have hne : ¬ (cl'.cur % c.groups = cl.cur % c.groups ∧ j = v) := by
        rintro ⟨h5, h6⟩
        rw [h5, h6, hl] at hx; cases hx
      refine ⟨?_, ?_, h3, ?_⟩
      · show (setBuf _ _ _ _ _ _).shadow = _
        rw [setBuf_other hne]; exact h1
      · show Agree c (setBuf _ _ _ _ _ _).data _
        rw [setBuf_other hne]; exact h2
      · intro j'
        show (setBuf _ _ _ _ _ _).id ≠ _
        by_cases hgj : k.2 % c.groups = cl.cur % c.groups ∧ j' = v
        · rw [hgj.1, hgj.2, setBuf_same]
          intro e2
          cases e2
          exact hnoev q cl' j hq' e
        · rw [setBuf_other hgj]; exact h4 j'
  · intro g j k
    show (setBuf _ _ _ _ _ _).id = _ → _
    by_cases hgj : g = cl.cur % c.groups ∧ j = v
    · obtain ⟨rfl, rfl⟩ := hgj
      rw [setBuf_same]; intro e; cases e; rfl
    · rw [setBuf_other hgj]; exact h.group g j k
  · intro g j j' k
    show (setBuf _ _ _ _ _ _).id = _ → (setBuf _ _ _ _ _ _).id = _ → _
    by_cases hgj : g = cl.cur % c.groups ∧ j = v
    · obtain ⟨rfl, rfl⟩ := hgj
      rw [setBuf_same]; intro e; cases e
      by_cases hj' : j' = j
      · intro _; exact hj'.symm
      · rw [setBuf_other (by rintro ⟨-, h1⟩; exact hj' h1)]
        intro e; exact absurd e (hno j')
    · rw [setBuf_other hgj]
      intro e1
      by_cases hgj' : g = cl.cur % c.groups ∧ j' = v
      · obtain ⟨rfl, rfl⟩ := hgj'
        rw [setBuf_same]; intro e; cases e
        exact absurd e1 (hno j)
      · rw [setBuf_other hgj']; exact h.uniq g j j' k e1
  · intro g j k
    show (setBuf _ _ _ _ _ _).id = _ → _
    by_cases hgj : g = cl.cur % c.groups ∧ j = v
    · obtain ⟨rfl, rfl⟩ := hgj
      intro _; exact hv
    · rw [setBuf_other hgj]; exact h.four g j k
  · intro g j k
    show (setBuf _ _ _ _ _ _).lock = _ → (setBuf _ _ _ _ _ _).id = _ →
      Agree c (setBuf _ _ _ _ _ _).data _ ∧ ((setBuf _ _ _ _ _ _).dirty = _ → _)
    by_cases hgj : g = cl.cur % c.groups ∧ j = v
    · obtain ⟨rfl, rfl⟩ := hgj
      rw [setBuf_same]; intro e; cases e
    · rw [setBuf_other hgj]; exact h.data g j k
  · intro k hk hev
    have hkk : k ≠ cl.key := by
      intro e
      subst e
      apply hk v
      show (setBuf _ _ _ _ _ _).id = _
      rw [key_group, setBuf_same]
    by_cases hin : (s.bufs (cl.cur % c.groups) v).id = some k
    · -- the block just evicted
      have hkg := h.group _ _ _ hin
      cases hd : (s.bufs (cl.cur % c.groups) v).dirty with
      | true =>
        exfalso
        refine hev p _ v (get_set_same hp) ?_
        show Pc.evict v (s.bufs (cl.cur % c.groups) v).dirty (s.bufs (cl.cur % c.groups) v).id = _
        rw [hd, hin]
      | false => exact (h.data _ _ _ hl hin).2 hd
    · apply h.disk k
      · intro j e
        apply hk j
        show (setBuf _ _ _ _ _ _).id = _
        rw [setBuf_other]
        · exact e
        · rintro ⟨h1, h2⟩
          rw [h1, h2] at e; exact hin e
      · intro q cl' j hq e
        by_cases hqp : q = p
        · subst hqp
          rw [hp] at hq; cases hq
          rw [hpc] at e; cases e
        · exact hev q cl' j ((get_set_other hqp).trans hq) e

/-- Writing back the evicted block. -/
theorem Cache.writeBack (h : Cache c first s) (hp : s.procs[p]? = some (some cl)) {j : Nat} {k : Key}
    (hpc : cl.pc = .evict j true (some k)) (f : Nat → Nat → Bool) :
    Cache c first (Verif.OBuffers.setPc { s with
      disk := setDisk s.disk k (s.bufs (cl.cur % c.groups) j).data, fex := f } p cl (.load j)) := by
  obtain ⟨h1, h2, h3, h4⟩ := h.prev p cl j k hp hpc
  have hx := h.holds p cl j hp (Or.inr ⟨_, _, hpc⟩)
  refine ⟨?_, ?_, ?_, ?_, h.group, h.uniq, h.four, ?_, ?_⟩
  · intro q cl' j' hq e
    rcases get_set_cases hq with ⟨rfl, e'⟩ | ⟨hn, hq'⟩
    · cases e'; cases e
    · exact h.wait q cl' j' hq' e
  · intro g j' q hl
    obtain ⟨cl', g1, g2, g3, g4, g5, g6, g7⟩ := h.lock g j' q hl
    have hkk : cl'.key ≠ k := by
      intro e
      rw [e] at g4
      have := h.group _ _ _ g4
      rw [← this] at g4
      exact h4 _ g4
    have hdisk : Agree c (setDisk s.disk k (s.bufs (cl.cur % c.groups) j).data cl'.key)
        (mem c first s.trace cl'.key) := by
      rw [setDisk_other hkk]; exact g6
    by_cases hqp : q = p
    · subst hqp
      rw [hp] at g1; cases g1
      have : j' = j := by
        rw [hpc] at g7
        rcases g7 with g7 | ⟨_, _, g7⟩ <;> cases g7
        rfl
      subst this
      exact ⟨_, get_set_same hp, g2, g3, g4, g5, hdisk, Or.inl rfl⟩
    · exact ⟨cl', (get_set_other hqp).trans g1, g2, g3, g4, g5, hdisk, g7⟩
  · intro q cl' j' hq e
    rcases get_set_cases hq with ⟨rfl, e'⟩ | ⟨hn, hq'⟩
    · cases e'
      rcases e with e | ⟨_, _, e⟩ <;> cases e
      exact hx
    · exact h.holds q cl' j' hq' e
  · intro q cl' j' k' hq e
    rcases get_set_cases hq with ⟨rfl, e'⟩ | ⟨hn, hq'⟩
    · cases e'; cases e
    · exact h.prev q cl' j' k' hq' e
  · intro g j' k' hl hid
    obtain ⟨g1, g2⟩ := h.data g j' k' hl hid
    refine ⟨g1, fun hd => ?_⟩
    have hkk : k' ≠ k := by
      intro e
      rw [e] at hid
      have := h.group _ _ _ hid
      rw [← this] at hid
      exact h4 _ hid
    show Agree c (setDisk _ _ _ _) _
    rw [setDisk_other hkk]; exact g2 hd
  · intro k' hk hev
    show Agree c (setDisk _ _ _ _) _
    by_cases hkk : k' = k
    · subst hkk; rw [setDisk_same]; exact h2
    · rw [setDisk_other hkk]
      apply h.disk k' hk
      intro q cl' j' hq e
      by_cases hqp : q = p
      · subst hqp
        rw [hp] at hq; cases hq
        rw [hpc] at e
        cases e
        exact hkk rfl
      · exact hev q cl' j' ((get_set_other hqp).trans hq) e

/-- Nothing to write back. -/
theorem Cache.noWriteBack (h : Cache c first s) (hp : s.procs[p]? = some (some cl)) {j : Nat}
    {pd : Bool} {prev : Option Key}
    (hpc : cl.pc = .evict j pd prev) (hno : ∀ k, ¬ (pd = true ∧ prev = some k)) :
    Cache c first (Verif.OBuffers.setPc s p cl (.load j)) := by
  have hx := h.holds p cl j hp (Or.inr ⟨_, _, hpc⟩)
  refine ⟨?_, ?_, ?_, ?_, h.group, h.uniq, h.four, h.data, ?_⟩
  · intro q cl' j' hq e
    rcases get_set_cases hq with ⟨rfl, e'⟩ | ⟨hn, hq'⟩
    · cases e'; cases e
    · exact h.wait q cl' j' hq' e
  · intro g j' q hl
    obtain ⟨cl', g1, g2, g3, g4, g5, g6, g7⟩ := h.lock g j' q hl
    by_cases hqp : q = p
    · subst hqp
      rw [hp] at g1; cases g1
      have : j' = j := by
        rw [hpc] at g7
        rcases g7 with g7 | ⟨_, _, g7⟩ <;> cases g7
        rfl
      subst this
      exact ⟨_, get_set_same hp, g2, g3, g4, g5, g6, Or.inl rfl⟩
    · exact ⟨cl', (get_set_other hqp).trans g1, g2, g3, g4, g5, g6, g7⟩
  · intro q cl' j' hq e
    rcases get_set_cases hq with ⟨rfl, e'⟩ | ⟨hn, hq'⟩
    · cases e'
      rcases e with e | ⟨_, _, e⟩ <;> cases e
      exact hx
    · exact h.holds q cl' j' hq' e
  · intro q cl' j' k' hq e
    rcases get_set_cases hq with ⟨rfl, e'⟩ | ⟨hn, hq'⟩
    · cases e'; cases e
    · exact h.prev q cl' j' k' hq' e
  · intro k' hk hev
    apply h.disk k' hk
    intro q cl' j' hq e
    by_cases hqp : q = p
    · subst hqp
      rw [hp] at hq; cases hq
      rw [hpc] at e
      cases e
      exact hno _ ⟨rfl, rfl⟩
    · exact hev q cl' j' ((get_set_other hqp).trans hq) e

theorem Cache.flush (h : Cache c first s) {g j : Nat} {k : Key} (hl : (s.bufs g j).lock = none)
    (hid : (s.bufs g j).id = some k) (f : Nat → Nat → Bool) :
    Cache c first { s with
      bufs := setBuf s.bufs g j { s.bufs g j with dirty := false },
      disk := setDisk s.disk k (s.bufs g j).data, fex := f } := by
  have hB : ∀ g' j', (setBuf s.bufs g j { s.bufs g j with dirty := false } g' j').id =
      (s.bufs g' j').id ∧ (setBuf s.bufs g j { s.bufs g j with dirty := false } g' j').lock =
      (s.bufs g' j').lock ∧ (setBuf s.bufs g j { s.bufs g j with dirty := false } g' j').shadow =
      (s.bufs g' j').shadow ∧ (setBuf s.bufs g j { s.bufs g j with dirty := false } g' j').data =
      (s.bufs g' j').data := by
    intro g' j'
    by_cases e : g' = g ∧ j' = j
    · obtain ⟨rfl, rfl⟩ := e; rw [setBuf_same]; exact ⟨rfl, rfl, rfl, rfl⟩
    · rw [setBuf_other e]; exact ⟨rfl, rfl, rfl, rfl⟩
  have hkey : ∀ g' j', (s.bufs g' j').id = some k → g' = g ∧ j' = j := by
    intro g' j' e
    have e1 := h.group _ _ _ e
    have e2 := h.group _ _ _ hid
    have : g' = g := by rw [← e1, ← e2]
    subst this
    exact ⟨rfl, h.uniq _ _ _ _ e hid⟩
  have hD := (h.data g j k hl hid).1
  refine ⟨?_, ?_, ?_, ?_, ?_, ?_, ?_, ?_, ?_⟩
  · intro q cl' j' hq e
    show _ ∧ (setBuf _ _ _ _ _ _).id = _
    rw [(hB _ _).1]; exact h.wait q cl' j' hq e
  · intro g' j' q
    show (setBuf _ _ _ _ _ _).lock = _ → _
    rw [(hB _ _).2.1]
    intro e
    obtain ⟨cl', g1, g2, g3, g4, g5, g6, g7⟩ := h.lock g' j' q e
    have hne : ¬ (g' = g ∧ j' = j) := by
      rintro ⟨rfl, rfl⟩; rw [hl] at e; cases e
    refine ⟨cl', g1, g2, g3, ?_, ?_, ?_, g7⟩
    · show (setBuf _ _ _ _ _ _).id = _
      rw [(hB _ _).1]; exact g4
    · show (setBuf _ _ _ _ _ _).dirty = _
      rw [setBuf_other hne]; exact g5
    · show Agree c (setDisk _ _ _ _) _
      rw [setDisk_other]
      · exact g6
      · intro e2; rw [e2] at g4; exact hne (hkey _ _ g4)
  · intro q cl' j' hq e
    show (setBuf _ _ _ _ _ _).lock = _
    rw [(hB _ _).2.1]; exact h.holds q cl' j' hq e
  · intro q cl' j' k' hq e
    obtain ⟨h1, h2, h3, h4⟩ := h.prev q cl' j' k' hq e
    refine ⟨?_, ?_, h3, ?_⟩
    · show (setBuf _ _ _ _ _ _).shadow = _
      rw [(hB _ _).2.2.1]; exact h1
    · show Agree c (setBuf _ _ _ _ _ _).data _
      rw [(hB _ _).2.2.2]; exact h2
    · intro j''
      show (setBuf _ _ _ _ _ _).id ≠ _
      rw [(hB _ _).1]; exact h4 j''
  · intro g' j' k'
    show (setBuf _ _ _ _ _ _).id = _ → _
    rw [(hB _ _).1]; exact h.group g' j' k'
  · intro g' j' j'' k'
    show (setBuf _ _ _ _ _ _).id = _ → (setBuf _ _ _ _ _ _).id = _ → _
    rw [(hB _ _).1, (hB _ _).1]; exact h.uniq g' j' j'' k'
  · intro g' j' k'
    show (setBuf _ _ _ _ _ _).id = _ → _
    rw [(hB _ _).1]; exact h.four g' j' k'
  · intro g' j' k'
    show (setBuf _ _ _ _ _ _).lock = _ → (setBuf _ _ _ _ _ _).id = _ →
      Agree c (setBuf _ _ _ _ _ _).data _ ∧ ((setBuf _ _ _ _ _ _).dirty = _ → Agree c (setDisk _ _ _ _) _)
    rw [(hB _ _).1, (hB _ _).2.1, (hB _ _).2.2.2]
    intro e1 e2
    obtain ⟨g1, g2⟩ := h.data g' j' k' e1 e2
    refine ⟨g1, ?_⟩
    by_cases e : k' = k
    · subst e; intro _; rw [setDisk_same]; exact hD
    · have hne : ¬ (g' = g ∧ j' = j) := by
        rintro ⟨rfl, rfl⟩
        rw [hid] at e2; cases e2; exact e rfl
      rw [setBuf_other hne, setDisk_other e]; exact g2
  · intro k' hk hev
    have hk' : ∀ j', (s.bufs (k'.2 % c.groups) j').id ≠ some k' := by
      intro j' e
      apply hk j'
      show (setBuf _ _ _ _ _ _).id = _
      rw [(hB _ _).1]; exact e
    have hne : k' ≠ k := by
      intro e
      subst e
      have := h.group _ _ _ hid
      rw [← this] at hid
      exact hk' _ hid
    show Agree c (setDisk _ _ _ _) _
    rw [setDisk_other hne]; exact h.disk k' hk' hev

/-- The block was read from disk: as if it had been found. -/
theorem Cache.loaded (h : Cache c first s) (hp : s.procs[p]? = some (some cl)) {j : Nat}
    (hpc : cl.pc = .load j) (f : Nat → Nat → Bool) :
    Cache c first { s with
      bufs := setBuf s.bufs (cl.cur % c.groups) j
        { s.bufs (cl.cur % c.groups) j with shadow := none, data := s.disk cl.key, lock := none },
      fex := f,
      procs := s.procs.set p (some { cl with pc := .waitHit j }) } := by
  have hx := h.holds p cl j hp (Or.inl hpc)
  obtain ⟨cl0, e0, -, hj4, hid, hdirty, hag, -⟩ := h.lock _ _ _ hx
  rw [hp] at e0; cases e0
  have hB : ∀ g' j', (setBuf s.bufs (cl.cur % c.groups) j
        { s.bufs (cl.cur % c.groups) j with shadow := none, data := s.disk cl.key, lock := none } g' j').id =
      (s.bufs g' j').id := by
    intro g' j'
    by_cases e : g' = cl.cur % c.groups ∧ j' = j
    · obtain ⟨rfl, rfl⟩ := e; rw [setBuf_same]
    · rw [setBuf_other e]
  refine ⟨?_, ?_, ?_, ?_, ?_, ?_, ?_, ?_, ?_⟩
  · intro q cl' j' hq e
    show _ ∧ (setBuf _ _ _ _ _ _).id = _
    rw [hB]
    rcases get_set_cases hq with ⟨rfl, e'⟩ | ⟨hn, hq'⟩
    · cases e'; cases e; exact ⟨hj4, hid⟩
    · exact h.wait q cl' j' hq' e
  · intro g' j' q
    show (setBuf _ _ _ _ _ _).lock = _ → _
    by_cases hgj : g' = cl.cur % c.groups ∧ j' = j
    · obtain ⟨rfl, rfl⟩ := hgj; rw [setBuf_same]; intro e; cases e
    · rw [setBuf_other hgj]
      intro e
      obtain ⟨cl', g1, g2, g3, g4, g5, g6, g7⟩ := h.lock g' j' q e
      have hqp : q ≠ p := by
        rintro rfl
        rw [hp] at g1; cases g1
        rw [hpc] at g7
        rcases g7 with g7 | ⟨_, _, g7⟩ <;> cases g7
        exact hgj ⟨g2.symm, rfl⟩
      refine ⟨cl', (get_set_other hqp).trans g1, g2, g3, ?_, ?_, g6, g7⟩
      · show (setBuf _ _ _ _ _ _).id = _; rw [hB]; exact g4
      · show (setBuf _ _ _ _ _ _).dirty = _; rw [setBuf_other hgj]; exact g5
  · intro q cl' j' hq e
    show (setBuf _ _ _ _ _ _).lock = _
    rcases get_set_cases hq with ⟨rfl, e'⟩ | ⟨hn, hq'⟩
    · cases e'
      rcases e with e | ⟨_, _, e⟩ <;> cases e
    · have hy := h.holds q cl' j' hq' e
      rw [setBuf_other]
      · exact hy
      · rintro ⟨h1, h2⟩
        rw [h1, h2, hx] at hy; cases hy; exact hn rfl
  · intro q cl' j' k hq e
    rcases get_set_cases hq with ⟨rfl, e'⟩ | ⟨hn, hq'⟩
    · cases e'; cases e
    · have hy := h.holds q cl' j' hq' (Or.inr ⟨_, _, e⟩)
      have hne : ¬ (cl'.cur % c.groups = cl.cur % c.groups ∧ j' = j) := by
        rintro ⟨h1, h2⟩
        rw [h1, h2, hx] at hy; cases hy; exact hn rfl
      obtain ⟨h1, h2, h3, h4⟩ := h.prev q cl' j' k hq' e
      refine ⟨?_, ?_, h3, ?_⟩
      · show (setBuf _ _ _ _ _ _).shadow = _
        rw [setBuf_other hne]; exact h1
      · show Agree c (setBuf _ _ _ _ _ _).data _
        rw [setBuf_other hne]; exact h2
      · intro j''
        show (setBuf _ _ _ _ _ _).id ≠ _
        rw [hB]; exact h4 j''
  · intro g' j' k'
    show (setBuf _ _ _ _ _ _).id = _ → _
    rw [hB]; exact h.group g' j' k'
  · intro g' j' j'' k'
    show (setBuf _ _ _ _ _ _).id = _ → (setBuf _ _ _ _ _ _).id = _ → _
    rw [hB, hB]; exact h.uniq g' j' j'' k'
  · intro g' j' k'
    show (setBuf _ _ _ _ _ _).id = _ → _
    rw [hB]; exact h.four g' j' k'
  · intro g' j' k'
    show (setBuf _ _ _ _ _ _).lock = _ → (setBuf _ _ _ _ _ _).id = _ →
      Agree c (setBuf _ _ _ _ _ _).data _ ∧ ((setBuf _ _ _ _ _ _).dirty = _ → _)
    by_cases hgj : g' = cl.cur % c.groups ∧ j' = j
    · obtain ⟨rfl, rfl⟩ := hgj; rw [setBuf_same]
      intro _ e
      have : k' = cl.key := by
        rw [show (s.bufs (cl.cur % c.groups) j').id = some k' from e] at hid; cases hid; rfl
      subst this
      exact ⟨hag, fun _ => hag⟩
    · rw [setBuf_other hgj]; exact h.data g' j' k'
  · intro k' hk hev
    apply h.disk k'
    · intro j' e
      apply hk j'
      show (setBuf _ _ _ _ _ _).id = _
      rw [hB]; exact e
    · intro q cl' j' hq e
      by_cases hqp : q = p
      · subst hqp
        rw [hp] at hq; cases hq
        rw [hpc] at e; cases e
      · exact hev q cl' j' ((get_set_other hqp).trans hq) e

/-- The end of a copy: the call goes on to the next block or returns. -/
theorem Cache.leave (h : Cache c first s) (hp : s.procs[p]? = some (some cl)) {j : Nat}
    (hpc : cl.pc = .waitHit j) {v : Option Call} (hv : ∀ cl', v = some cl' → cl'.pc = .scan) :
    Cache c first { s with procs := s.procs.set p v } := by
  refine ⟨?_, ?_, ?_, ?_, h.group, h.uniq, h.four, h.data, ?_⟩
  · intro q cl' j' hq e
    rcases get_set_cases hq with ⟨rfl, e'⟩ | ⟨hn, hq'⟩
    · rw [hv _ e'] at e; cases e
    · exact h.wait q cl' j' hq' e
  · intro g' j' q e
    obtain ⟨cl', g1, g2, g3, g4, g5, g6, g7⟩ := h.lock g' j' q e
    have hqp : q ≠ p := by
      rintro rfl
      rw [hp] at g1; cases g1
      rw [hpc] at g7
      rcases g7 with g7 | ⟨_, _, g7⟩ <;> cases g7
    exact ⟨cl', (get_set_other hqp).trans g1, g2, g3, g4, g5, g6, g7⟩
  · intro q cl' j' hq e
    rcases get_set_cases hq with ⟨rfl, e'⟩ | ⟨hn, hq'⟩
    · rw [hv _ e'] at e
      rcases e with e | ⟨_, _, e⟩ <;> cases e
    · exact h.holds q cl' j' hq' e
  · intro q cl' j' k hq e
    rcases get_set_cases hq with ⟨rfl, e'⟩ | ⟨hn, hq'⟩
    · rw [hv _ e'] at e; cases e
    · exact h.prev q cl' j' k hq' e
  · intro k' hk hev
    apply h.disk k' hk
    intro q cl' j' hq e
    by_cases hqp : q = p
    · subst hqp
      rw [hp] at hq; cases hq
      rw [hpc] at e; cases e
    · exact hev q cl' j' ((get_set_other hqp).trans hq) e

/-- Events that change no byte. -/
theorem Cache.event (h : Cache c first s) {ev : Ev} (he : ∀ t a bs, ev ≠ .wr t a bs) :
    Cache c first { s with trace := ev :: s.trace } := by
  have hm : mem c first (ev :: s.trace) = mem c first s.trace := by
    cases ev with
    | wr t a bs => exact absurd rfl (he t a bs)
    | _ => rfl
  constructor
  · exact h.wait
  · show ∀ g j p, _ → ∃ cl : Call, _
    simp only [hm]; exact h.lock
  · exact h.holds
  · simp only [hm]; exact h.prev
  · exact h.group
  · exact h.uniq
  · exact h.four
  · simp only [hm]; exact h.data
  · simp only [hm]; exact h.disk

/-- A write into the buffer. -/
theorem Cache.write (h : Cache c first s) (hp : s.procs[p]? = some (some cl)) {j : Nat}
    (hpc : cl.pc = .waitHit j) (hl : (s.bufs (cl.cur % c.groups) j).lock = none) {co n ptr : Nat}
    {buf : Nat → Nat} (hn : co + n ≤ c.blk) :
    Cache c first { s with
      bufs := setBuf s.bufs (cl.cur % c.groups) j
        { s.bufs (cl.cur % c.groups) j with
          data := cpy (s.bufs (cl.cur % c.groups) j).data co buf ptr n, dirty := true, lock := none },
      trace := .wr cl.op.tag (cl.cur * c.blk + co) (slice buf ptr n) :: s.trace } := by
  obtain ⟨hj4, hid⟩ := h.wait p cl j hp hpc
  have hD := (h.data _ _ _ hl hid).1
  have hB : ∀ g' j', (setBuf s.bufs (cl.cur % c.groups) j
        { s.bufs (cl.cur % c.groups) j with
          data := cpy (s.bufs (cl.cur % c.groups) j).data co buf ptr n, dirty := true, lock := none } g' j').id =
      (s.bufs g' j').id ∧ (setBuf s.bufs (cl.cur % c.groups) j
        { s.bufs (cl.cur % c.groups) j with
          data := cpy (s.bufs (cl.cur % c.groups) j).data co buf ptr n, dirty := true, lock := none } g' j').lock =
      (s.bufs g' j').lock := by
    intro g' j'
    by_cases e : g' = cl.cur % c.groups ∧ j' = j
    · obtain ⟨rfl, rfl⟩ := e; rw [setBuf_same]; exact ⟨rfl, hl.symm⟩
    · rw [setBuf_other e]; exact ⟨rfl, rfl⟩
  have hkey : ∀ g' j', (s.bufs g' j').id = some cl.key → g' = cl.cur % c.groups ∧ j' = j := by
    intro g' j' e
    have e1 := h.group _ _ _ e
    have : g' = cl.cur % c.groups := by rw [← e1]; rfl
    subst this
    exact ⟨rfl, h.uniq _ _ _ _ e hid⟩
  have hother : ∀ {k : Key} {d : Nat → Nat}, k ≠ cl.key → Agree c d (mem c first s.trace k) →
      Agree c d (mem c first (.wr cl.op.tag (cl.cur * c.blk + co) (slice buf ptr n) :: s.trace) k) := by
    intro k d hk ha o ho
    rw [ha o ho]
    exact (mem_wr_other (k := cl.key) hk ho hn).symm
  refine ⟨?_, ?_, ?_, ?_, ?_, ?_, ?_, ?_, ?_⟩
  · intro q cl' j' hq e
    show _ ∧ (setBuf _ _ _ _ _ _).id = _
    rw [(hB _ _).1]; exact h.wait q cl' j' hq e
  · intro g' j' q
    show (setBuf _ _ _ _ _ _).lock = _ → _
    rw [(hB _ _).2]
    intro e
    obtain ⟨cl', g1, g2, g3, g4, g5, g6, g7⟩ := h.lock g' j' q e
    have hne : ¬ (g' = cl.cur % c.groups ∧ j' = j) := by
      rintro ⟨rfl, rfl⟩; rw [hl] at e; cases e
    refine ⟨cl', g1, g2, g3, ?_, ?_, ?_, g7⟩
    · show (setBuf _ _ _ _ _ _).id = _
      rw [(hB _ _).1]; exact g4
    · show (setBuf _ _ _ _ _ _).dirty = _
      rw [setBuf_other hne]; exact g5
    · refine hother ?_ g6
      intro e2; rw [e2] at g4; exact hne (hkey _ _ g4)
  · intro q cl' j' hq e
    show (setBuf _ _ _ _ _ _).lock = _
    rw [(hB _ _).2]; exact h.holds q cl' j' hq e
  · intro q cl' j' k' hq e
    obtain ⟨h1, h2, h3, h4⟩ := h.prev q cl' j' k' hq e
    have hy := h.holds q cl' j' hq (Or.inr ⟨_, _, e⟩)
    have hne : ¬ (cl'.cur % c.groups = cl.cur % c.groups ∧ j' = j) := by
      rintro ⟨h5, h6⟩
      rw [h5, h6, hl] at hy; cases hy
    refine ⟨?_, ?_, h3, ?_⟩
    · show (setBuf _ _ _ _ _ _).shadow = _
      rw [setBuf_other hne]; exact h1
    · show Agree c (setBuf _ _ _ _ _ _).data _
      rw [setBuf_other hne]
      refine hother ?_ h2
      intro e2; subst e2
      exact h4 _ hid
    · intro j''
      show (setBuf _ _ _ _ _ _).id ≠ _
      rw [(hB _ _).1]; exact h4 j''
  · intro g' j' k'
    show (setBuf _ _ _ _ _ _).id = _ → _
    rw [(hB _ _).1]; exact h.group g' j' k'
  · intro g' j' j'' k'
    show (setBuf _ _ _ _ _ _).id = _ → (setBuf _ _ _ _ _ _).id = _ → _
    rw [(hB _ _).1, (hB _ _).1]; exact h.uniq g' j' j'' k'
  · intro g' j' k'
    show (setBuf _ _ _ _ _ _).id = _ → _
    rw [(hB _ _).1]; exact h.four g' j' k'
  · intro g' j' k'
    show (setBuf _ _ _ _ _ _).lock = _ → (setBuf _ _ _ _ _ _).id = _ →
      Agree c (setBuf _ _ _ _ _ _).data _ ∧ ((setBuf _ _ _ _ _ _).dirty = _ → _)
    rw [(hB _ _).1, (hB _ _).2]
    intro e1 e2
    by_cases hgj : g' = cl.cur % c.groups ∧ j' = j
    · obtain ⟨rfl, rfl⟩ := hgj
      rw [hid] at e2; cases e2
      rw [setBuf_same]
      refine ⟨?_, fun e => by cases e⟩
      intro o ho
      show cpy _ _ _ _ _ _ = mem c first (.wr cl.key.1 (cl.key.2 * c.blk + co) _ :: _) _ _
      rw [mem_wr_same]
      unfold cpy
      split
      · rfl
      · exact hD o ho
    · rw [setBuf_other hgj]
      obtain ⟨g1, g2⟩ := h.data g' j' k' e1 e2
      have hk : k' ≠ cl.key := by
        intro e; rw [e] at e2; exact hgj (hkey _ _ e2)
      exact ⟨hother hk g1, fun hd => hother hk (g2 hd)⟩
  · intro k' hk hev
    have hk' : ∀ j', (s.bufs (k'.2 % c.groups) j').id ≠ some k' := by
      intro j' e
      apply hk j'
      show (setBuf _ _ _ _ _ _).id = _
      rw [(hB _ _).1]; exact e
    have hne : k' ≠ cl.key := by
      intro e
      subst e
      exact hk' _ hid
    exact hother hne (h.disk k' hk' hev)

end Verif.OBuffers
