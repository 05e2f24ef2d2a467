/-
The invariant of regular runs.
-/
import Verif.RowLocks.Val

namespace Verif.RowLocks

/-- What the undo record of a header undoes. -/
def kindOf (h : Hdr) : Kind := if h.lockOnly then .lock else .mod

/-- The facts about the chain `L` of the row and the undo stacks. -/
structure Core (s : St) (L : List Hdr) : Prop where
  stored : Stored s.recs L
  flags : Flags L
  sound : Sound s.st s.ipLow L
  lt : ∀ h ∈ L, h.loc < s.next
  pos : 0 < s.next
  own : ∀ h ∈ L, s.st h.oxid = .running → h.loc ≠ 0 → (h.loc, kindOf h) ∈ s.stack h.oxid
  ins : ∀ h ∈ L, s.st h.oxid = .running → h.loc = 0 → ∃ l, (l, Kind.ins) ∈ s.stack h.oxid ∧
    ∀ k ∈ L, k.oxid = h.oxid → k.loc ≠ 0 → l < k.loc
  bottom : ∀ h ∈ L, h.loc = 0 → h.mode = 3 ∧ h.deleted = false
  insRow : ∀ x l, s.st x = .running → (l, Kind.ins) ∈ s.stack x → ∃ h ∈ L, h.oxid = x ∧ h.loc = 0
  insOne : ∀ x l l', s.st x = .running → (l, Kind.ins) ∈ s.stack x → (l', Kind.ins) ∈ s.stack x →
    l = l'
  dec : ∀ x, (s.stack x).Pairwise (fun a b => b.1 < a.1)
  items : ∀ x, ∀ a ∈ s.stack x, 0 < a.1 ∧ a.1 < s.next

/-- The facts about the chain `L` of the row, the stacks and the log. -/
structure Inv (s : St) (g : Log) (L : List Hdr) (t : Nat) : Prop where
  row : (s.row = none ∧ L = []) ∨ ∃ h L', s.row = some ⟨h, t⟩ ∧ L = h :: L'
  core : Core s L
  ended : ∀ x, g.ended x = false ↔ s.st x = .running
  leaving : ∀ x, g.leaving x = s.aborting x
  modes : ∀ a ∈ g.acts, a.mode ≤ 3
  act : ∀ h ∈ L, s.st h.oxid = .running → ∃ a ∈ g.acts, a.who = h.oxid ∧ a.mode = h.mode
  cover : ∀ a ∈ g.acts, s.st a.who = .running → s.aborting a.who = false →
    ∃ h ∈ L, h.oxid = a.who ∧ a.mode ≤ h.mode
  val : Val s.st s.aborting (fun l => (s.recs l).tup) t L g.acts

theorem Inv.init (b : Bool) (t : Nat) : Inv (St.init b) Log.init [] t := by
  refine ⟨Or.inl ⟨rfl, rfl⟩, ⟨trivial, trivial, ?_, ?_, by simp [St.init], ?_, ?_, ?_, ?_, ?_, ?_, ?_⟩,
    ?_, ?_, ?_, ?_, ?_, .empty⟩
  · refine ⟨?_, ?_, ?_, ?_, ?_, ?_, ?_, ?_, trivial⟩ <;> simp
  all_goals simp [St.init, Log.init]

/-- The table of conflicting modes is the sum test of the code. -/
theorem clash_iff {a b : Nat} (ha : a ≤ 3) (hb : b ≤ 3) : Clash a b ↔ conflicts a b = true := by
  have h1 : a = 0 ∨ a = 1 ∨ a = 2 ∨ a = 3 := by omega
  have h2 : b = 0 ∨ b = 1 ∨ b = 2 ∨ b = 3 := by omega
  rcases h1 with h | h | h | h <;> rcases h2 with k | k | k | k <;> subst h <;> subst k <;>
    simp [Clash, conflicts]

theorem conflicts_comm (a b : Nat) : conflicts a b = conflicts b a := by
  unfold conflicts; rw [Nat.add_comm]

theorem Stored.length {r : Recs} : ∀ {t : List Hdr} {h : Hdr}, Stored r (h :: t) →
    t.length ≤ h.loc
  | [], _, _ => by simp
  | g :: t, h, H => by
    have := Stored.length H.2.2.2
    have := H.2.2.1
    simp; omega

theorem chainOf_stored {r : Recs} : ∀ (n : Nat) {t : List Hdr} {h : Hdr}, Stored r (h :: t) →
    t.length ≤ n → chainOf r n h = h :: t
  | 0, t, h, H, hn => by
    cases t with
    | nil => rfl
    | cons g t => simp at hn
  | n + 1, t, h, H, hn => by
    unfold chainOf
    cases t with
    | nil =>
      have h0 : h.loc = 0 := H
      rw [if_pos h0]
    | cons g t =>
      rw [if_neg H.1, H.2.1, chainOf_stored n H.2.2.2 (by simp at hn; omega)]

/-- Removing locks. -/
theorem Core.red {s : St} {L L' : List Hdr} (C : Core s L) {r : Recs} {row : Option Row}
    (R : Red (fun h => h.lockOnly = true) L L') (K : Stored r L') (F : Flags L') :
    Core { s with row := row, recs := r } L' where
  stored := K
  flags := F
  sound := C.sound.red (R.mono (fun _ h => Or.inl h))
  lt := fun h hh => by
    obtain ⟨g, hg, e⟩ := R.mem h hh
    rw [e]; exact C.lt g hg
  pos := C.pos
  own := fun h hh => by
    obtain ⟨g, hg, e⟩ := R.mem h hh
    rw [e]; exact C.own g hg
  ins := fun h hh hr h0 => by
    obtain ⟨g, hg, e⟩ := R.mem h hh
    rw [e] at hr h0
    obtain ⟨l, h1, h2⟩ := C.ins g hg hr h0
    refine ⟨l, by rw [e]; exact h1, ?_⟩
    intro k hk ho
    obtain ⟨k', hk', e'⟩ := R.mem k hk
    rw [e'] at ho ⊢
    rw [e] at ho
    exact h2 k' hk' ho
  bottom := fun h hh => by
    obtain ⟨g, hg, e⟩ := R.mem h hh
    rw [e]; exact C.bottom g hg
  insRow := fun x l hr hm => by
    obtain ⟨h, hh, h1, h2⟩ := C.insRow x l hr hm
    obtain ⟨b, hb⟩ := R.mem' h hh (fun hl => C.sound.lockLoc h hh hl h2)
    exact ⟨_, hb, h1, h2⟩
  insOne := C.insOne
  dec := C.dec
  items := C.items

/-- Adding a header with a new undo record. -/
theorem Core.push {s : St} {h : Hdr} {L : List Hdr} (C : Core s (h :: L)) {x mode tup : Nat}
    {lockOnly deleted : Bool} {row : Option Row} (run : s.st x = .running) (hm : mode ≤ 3)
    (hm2 : lockOnly = false → 2 ≤ mode)
    (nobad : ∀ k ∈ h :: L, k.oxid ≠ x → s.st k.oxid = .running → conflicts k.mode mode = false)
    (hmono : s.ipLow = true → lockOnly = false →
      ∀ k ∈ h :: L, k.oxid = x → k.lockOnly = false → k.mode ≤ mode)
    (h3 : lockOnly = true → ∀ k ∈ h :: L, k.oxid = x → k.mode ≠ 3)
    (h1 : lockOnly = true → ∀ k ∈ h :: L, k.oxid = x → k.lockOnly = false)
    (hd : (lockOnly = true ∨ mode ≠ 3) → deleted = false ∧ h.deleted = false) :
    Core { s.record x (if lockOnly then .lock else .mod) h tup with row := row }
      (newHdr s x mode lockOnly deleted h :: h :: L) := by
  have hc2 : ∀ k ∈ h :: L, s.st k.oxid = .running → x = k.oxid ∨ conflicts mode k.mode = false := by
    intro k hk hr
    by_cases e : k.oxid = x
    · exact Or.inl e.symm
    · rw [conflicts_comm]; exact Or.inr (nobad k hk e hr)
  refine ⟨?_, ?_, ?_, ?_, ?_, ?_, ?_, ?_, ?_, ?_, ?_, ?_⟩
  · -- stored
    refine ⟨by have := C.pos; show s.next ≠ 0; omega, ?_, C.lt h (by simp), ?_⟩
    · simp [St.record, newHdr]
    · refine Stored.frame C.stored ?_
      intro k hk
      have := C.lt k hk
      have e : k.loc ≠ s.next := by omega
      simp [St.record, e]
  · -- flags
    refine ⟨?_, C.flags⟩
    intro hc k hk
    have hc' : (h.chl || h.lockOnly) = false := hc
    simp only [Bool.or_eq_false_iff] at hc'
    rcases List.mem_cons.1 hk with e | hk
    · subst e; exact ⟨hc'.2, hc'.1⟩
    · exact C.flags.1 hc'.1 k hk
  · -- sound
    have S := C.sound
    refine ⟨?_, ?_, ?_, ?_, ?_, ?_, ?_, ?_, ?_⟩
    · intro k hk
      rcases List.mem_cons.1 hk with e | hk
      · rw [e]; show s.st x ≠ _; rw [run]; simp
      · exact S.noAb k hk
    · intro k hk
      rcases List.mem_cons.1 hk with e | hk
      · rw [e]; exact hm
      · exact S.modes k hk
    · intro k hk
      rcases List.mem_cons.1 hk with e | hk
      · rw [e]; exact hm2
      · exact S.change k hk
    · intro k hk
      rcases List.mem_cons.1 hk with e | hk
      · rw [e]; intro _; have := C.pos; show s.next ≠ 0; omega
      · exact S.lockLoc k hk
    · exact List.Pairwise.cons (fun k hk hr => hc2 k hk hr) S.excl
    · intro hi
      refine List.Pairwise.cons ?_ (S.mono hi)
      intro k hk hr ho hl hl'
      exact hmono hi hl k hk ho.symm hl'
    · refine List.Pairwise.cons ?_ S.lock3
      intro k hk hr hl
      by_cases e : k.oxid = x
      · exact h3 hl k hk e
      · have := nobad k hk e hr
        unfold conflicts at this
        simp at this; omega
    · refine List.Pairwise.cons ?_ S.oneLock
      intro k hk hr hl hl' ho
      have := h1 hl k hk ho.symm
      rw [this] at hl'; cases hl'
    · exact ⟨hd, S.del⟩
  · intro k hk
    rcases List.mem_cons.1 hk with e | hk
    · rw [e]; show s.next < s.next + 1; omega
    · have := C.lt k hk; show k.loc < s.next + 1; omega
  · show 0 < s.next + 1; omega
  · -- own
    intro k hk hr h0
    rcases List.mem_cons.1 hk with e | hk
    · subst e
      show (s.next, _) ∈ upd s.stack x _ x
      simp only [upd, kindOf, newHdr, if_true]
      exact List.mem_cons_self
    · have := C.own k hk hr h0
      show _ ∈ upd s.stack x _ k.oxid
      unfold upd; split
      · next e => rw [e] at this; exact List.mem_cons_of_mem _ this
      · exact this
  · -- ins
    intro k hk hr h0
    rcases List.mem_cons.1 hk with e | hk
    · subst e
      have : s.next = 0 := h0
      have := C.pos; omega
    · obtain ⟨l, i1, i2⟩ := C.ins k hk hr h0
      refine ⟨l, ?_, ?_⟩
      · show _ ∈ upd s.stack x _ k.oxid
        unfold upd; split
        · next e => rw [e] at i1; exact List.mem_cons_of_mem _ i1
        · exact i1
      · intro j hj
        rcases List.mem_cons.1 hj with e | hj
        · subst e
          intro _ _
          exact (C.items _ _ i1).2
        · exact i2 j hj
  · intro k hk h0
    rcases List.mem_cons.1 hk with e | hk
    · subst e
      have : s.next = 0 := h0
      have := C.pos; omega
    · exact C.bottom k hk h0
  · -- insRow
    intro y l hr hm
    have hm' : (l, Kind.ins) ∈ s.stack y := by
      have hm : (l, Kind.ins) ∈ upd s.stack x _ y := hm
      unfold upd at hm
      split at hm
      · next e =>
        rcases List.mem_cons.1 hm with e' | hm
        · cases lockOnly <;> simp at e'
        · rw [e]; exact hm
      · exact hm
    obtain ⟨k, hk, e⟩ := C.insRow y l hr hm'
    exact ⟨k, List.mem_cons_of_mem _ hk, e⟩
  · intro y l l' hr m1 m2
    have : ∀ l, (l, Kind.ins) ∈ upd s.stack x ((s.next, if lockOnly then .lock else .mod) :: s.stack x) y →
        (l, Kind.ins) ∈ s.stack y := by
      intro l hm
      unfold upd at hm
      split at hm
      · next e =>
        rcases List.mem_cons.1 hm with e' | hm
        · cases lockOnly <;> simp at e'
        · rw [e]; exact hm
      · exact hm
    exact C.insOne y l l' hr (this l m1) (this l' m2)
  · intro y
    show (upd s.stack x _ y).Pairwise _
    unfold upd; split
    · exact List.Pairwise.cons (fun a ha => (C.items x a ha).2) (C.dec x)
    · exact C.dec y
  · intro y a ha
    have ha : a ∈ upd s.stack x ((s.next, if lockOnly then .lock else .mod) :: s.stack x) y := ha
    unfold upd at ha
    show 0 < a.1 ∧ a.1 < s.next + 1
    split at ha
    · rcases List.mem_cons.1 ha with e | ha
      · subst e; have := C.pos; dsimp only; omega
      · have := C.items x a ha; omega
    · have := C.items y a ha; omega

end Verif.RowLocks
