import Verif.OBuffers.Lemmas

/-!
# The invariant of the cache
-/

set_option linter.unusedSimpArgs false
set_option linter.unusedVariables false

namespace Verif.OBuffers

/-- Equal within a block. -/
def Agree (c : Cfg) (d m : Nat → Nat) : Prop := ∀ o, o < c.blk → d o = m o

/-- The part of the invariant about the cache and the disk. -/
structure Cache (c : Cfg) (first : Nat → Nat → Nat) (s : St) : Prop where
  /-- who waits for a buffer waits for the right one -/
  wait : ∀ (p : Nat) (cl : Call) j, s.procs[p]? = some (some cl) → cl.pc = .waitHit j →
    j < 4 ∧ (s.bufs (cl.cur % c.groups) j).id = some cl.key
  /-- a locked buffer is being loaded by its holder -/
  lock : ∀ g j p, (s.bufs g j).lock = some p → ∃ cl : Call, s.procs[p]? = some (some cl) ∧
    cl.cur % c.groups = g ∧ j < 4 ∧ (s.bufs g j).id = some cl.key ∧ (s.bufs g j).dirty = false ∧
    Agree c (s.disk cl.key) (mem c first s.trace cl.key) ∧
    (cl.pc = .load j ∨ ∃ pd prev, cl.pc = .evict j pd prev)
  /-- who loads holds the lock -/
  holds : ∀ (p : Nat) (cl : Call) j, s.procs[p]? = some (some cl) →
    (cl.pc = .load j ∨ ∃ pd prev, cl.pc = .evict j pd prev) →
    (s.bufs (cl.cur % c.groups) j).lock = some p
  /-- the block to write back -/
  prev : ∀ (p : Nat) (cl : Call) j k, s.procs[p]? = some (some cl) → cl.pc = .evict j true (some k) →
    (s.bufs (cl.cur % c.groups) j).shadow = some k ∧
    Agree c (s.bufs (cl.cur % c.groups) j).data (mem c first s.trace k) ∧
    k.2 % c.groups = cl.cur % c.groups ∧ ∀ j', (s.bufs (k.2 % c.groups) j').id ≠ some k
  /-- buffers are in the right group -/
  group : ∀ g j k, (s.bufs g j).id = some k → k.2 % c.groups = g
  /-- a block is in at most one buffer -/
  uniq : ∀ g j j' k, (s.bufs g j).id = some k → (s.bufs g j').id = some k → j = j'
  /-- only the four buffers of a group are used -/
  four : ∀ g j k, (s.bufs g j).id = some k → j < 4
  /-- a free buffer holds the bytes of its block -/
  data : ∀ g j k, (s.bufs g j).lock = none → (s.bufs g j).id = some k →
    Agree c (s.bufs g j).data (mem c first s.trace k) ∧
    ((s.bufs g j).dirty = false → Agree c (s.disk k) (mem c first s.trace k))
  /-- what is in no buffer and not being written back is on disk -/
  disk : ∀ k, (∀ j, (s.bufs (k.2 % c.groups) j).id ≠ some k) →
    (∀ (p : Nat) (cl : Call) j, s.procs[p]? = some (some cl) → cl.pc ≠ .evict j true (some k)) →
    Agree c (s.disk k) (mem c first s.trace k)

theorem hit_some {b : Nat → Nat → Buf} {g j : Nat} {k : Key} (h : hit b g k = some j) :
    j < 4 ∧ (b g j).id = some k := by
  unfold hit at h
  have h1 := List.find?_some h
  have h2 := List.mem_of_find?_eq_some h
  simp only [slots, List.mem_cons, List.not_mem_nil, or_false] at h2
  exact ⟨by omega, by simpa using h1⟩

theorem hit_none {b : Nat → Nat → Buf} {g : Nat} {k : Key} (h : hit b g k = none) {j : Nat}
    (hj : j < 4) : (b g j).id ≠ some k := by
  unfold hit at h
  rw [List.find?_eq_none] at h
  have := h j (by simp [slots]; omega)
  simpa using this

theorem get_set_same {α : Type} {l : List α} {p : Nat} {a v : α} (h : l[p]? = some a) :
    (l.set p v)[p]? = some v := by
  have : p < l.length := by
    rcases Nat.lt_or_ge p l.length with h1 | h1
    · exact h1
    · rw [List.getElem?_eq_none h1] at h; cases h
  simp [this]

theorem get_set_other {α : Type} {l : List α} {p q : Nat} {v : α} (h : q ≠ p) :
    (l.set p v)[q]? = l[q]? := by
  rw [List.getElem?_set_ne (fun e => h e.symm)]

/-- The calls at `q` after the call at `p` moved. -/
theorem get_set_cases {l : List (Option Call)} {p q : Nat} {v : Option Call} {cl : Call}
    (h : (l.set p v)[q]? = some (some cl)) : (q = p ∧ v = some cl) ∨ (q ≠ p ∧ l[q]? = some (some cl)) := by
  by_cases e : q = p
  · subst e
    by_cases hl : q < l.length
    · simp [hl] at h; exact Or.inl ⟨rfl, h⟩
    · rw [List.getElem?_eq_none (by simp; omega)] at h; cases h
  · rw [get_set_other e] at h; exact Or.inr ⟨e, h⟩

/-- Usage counts do not matter. -/
theorem Cache.usage {c : Cfg} {first : Nat → Nat → Nat} {s : St} {b : Nat → Nat → Buf}
    (u : Nat → Nat → Nat) (hb : ∀ g j, b g j = { s.bufs g j with usage := u g j })
    (h : Cache c first s) : Cache c first { s with bufs := b } := by
  refine ⟨?_, ?_, ?_, ?_, ?_, ?_, ?_, ?_, ?_⟩
  · intro p cl j; simp only [hb]; exact h.wait p cl j
  · intro g j p; simp only [hb]; exact h.lock g j p
  · intro p cl j; simp only [hb]; exact h.holds p cl j
  · intro p cl j k; simp only [hb]; exact h.prev p cl j k
  · intro g j k; simp only [hb]; exact h.group g j k
  · intro g j j' k; simp only [hb]; exact h.uniq g j j' k
  · intro g j k; simp only [hb]; exact h.four g j k
  · intro g j k; simp only [hb]; exact h.data g j k
  · intro k; simp only [hb]; exact h.disk k

/-- Moving between places where no lock is held. -/
theorem Cache.setPc {c : Cfg} {first : Nat → Nat → Nat} {s : St} {p : Nat} {cl : Call} {pc : Pc}
    (h : Cache c first s) (hp : s.procs[p]? = some (some cl))
    (h0 : cl.pc = .scan ∨ cl.pc = .miss)
    (h1 : pc = .scan ∨ pc = .miss ∨ ∃ j, pc = .waitHit j ∧ j < 4 ∧
      (s.bufs (cl.cur % c.groups) j).id = some cl.key) :
    Cache c first (setPc s p cl pc) := by
  have hne : ∀ j, ¬ (pc = .load j ∨ ∃ pd prev, pc = .evict j pd prev) := by
    intro j hh
    rcases h1 with e | e | ⟨_, e, _⟩ <;> subst e <;> rcases hh with hh | ⟨_, _, hh⟩ <;> cases hh
  have hne0 : ∀ j, ¬ (cl.pc = .load j ∨ ∃ pd prev, cl.pc = .evict j pd prev) := by
    intro j hh
    rcases h0 with e | e <;> rw [e] at hh <;> rcases hh with hh | ⟨_, _, hh⟩ <;> cases hh
  refine ⟨?_, ?_, ?_, ?_, h.group, h.uniq, h.four, h.data, ?_⟩
  · intro q cl' j hq hpc
    rcases get_set_cases hq with ⟨rfl, e⟩ | ⟨hn, hq'⟩
    · cases e
      rcases h1 with e | e | ⟨j', e, hj, hid⟩
      · rw [e] at hpc; cases hpc
      · rw [e] at hpc; cases hpc
      · rw [e] at hpc; cases hpc; exact ⟨hj, hid⟩
    · exact h.wait q cl' j hq' hpc
  · intro g j q hl
    obtain ⟨cl', hq, hg, hj, hid, hd, ha, hpc⟩ := h.lock g j q hl
    by_cases e : q = p
    · subst e
      rw [hp] at hq; cases hq
      exact absurd hpc (hne0 j)
    · exact ⟨cl', (get_set_other e).trans hq, hg, hj, hid, hd, ha, hpc⟩
  · intro q cl' j hq hpc
    rcases get_set_cases hq with ⟨rfl, e⟩ | ⟨hn, hq'⟩
    · cases e; exact absurd hpc (hne j)
    · exact h.holds q cl' j hq' hpc
  · intro q cl' j k hq hpc
    rcases get_set_cases hq with ⟨rfl, e⟩ | ⟨hn, hq'⟩
    · cases e; exact absurd (Or.inr ⟨_, _, hpc⟩) (hne j)
    · exact h.prev q cl' j k hq' hpc
  · intro k hk hev
    apply h.disk k hk
    intro q cl' j hq hpc
    by_cases e : q = p
    · subst e
      rw [hp] at hq; cases hq
      exact hne0 j (Or.inr ⟨_, _, hpc⟩)
    · exact hev q cl' j ((get_set_other e).trans hq) hpc

end Verif.OBuffers
