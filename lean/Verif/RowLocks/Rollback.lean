/-
Commits and rollbacks keep the invariant.
-/
import Verif.RowLocks.Ask

namespace Verif.RowLocks

/-- Transactions that end: the facts about the owners. -/
theorem Sound.settle {st st' : Nat → Status} {ipLow : Bool} {L : List Hdr} (S : Sound st ipLow L)
    (h : ∀ y, st' y = .running → st y = .running) (hn : ∀ k ∈ L, st' k.oxid ≠ .aborted) :
    Sound st' ipLow L where
  noAb := hn
  modes := S.modes
  change := S.change
  lockLoc := S.lockLoc
  excl := S.excl.imp (fun H hr => H (h _ hr))
  mono := fun i => (S.mono i).imp (fun H hr => H (h _ hr))
  lock3 := S.lock3.imp (fun H hr => H (h _ hr))
  oneLock := S.oneLock.imp (fun H hr => H (h _ hr))
  del := S.del

/-- Transactions that end: the facts about the chain. -/
theorem Core.settle {s : St} {L : List Hdr} (C : Core s L) {st' : Nat → Status}
    (h : ∀ y, st' y = .running → s.st y = .running) (hn : ∀ k ∈ L, st' k.oxid ≠ .aborted) :
    Core { s with st := st' } L where
  stored := C.stored
  flags := C.flags
  sound := C.sound.settle h hn
  lt := C.lt
  pos := C.pos
  own := fun k hk hr => C.own k hk (h _ hr)
  ins := fun k hk hr => C.ins k hk (h _ hr)
  bottom := C.bottom
  insRow := fun x l hr => C.insRow x l (h _ hr)
  insOne := fun x l l' hr => C.insOne x l l' (h _ hr)
  dec := C.dec
  items := C.items

theorem upd_running {st : Nat → Status} {x : Nat} {v : Status} (hv : v ≠ .running) {y : Nat}
    (h : upd st x v y = .running) : y ≠ x ∧ st y = .running := by
  unfold upd at h
  split at h
  · exact absurd h hv
  · next e => exact ⟨e, h⟩

theorem Inv.commit {s : St} {g : Log} {L : List Hdr} {t x c : Nat} (I : Inv s g L t)
    (run : s.st x = .running) (nab : s.aborting x = false) :
    Inv { s with st := upd s.st x (.committed c) } (g.step (.committed x)) L t where
  row := I.row
  core := by
    refine I.core.settle (fun y hy => (upd_running (by simp) hy).2) ?_
    intro k hk
    unfold upd; split
    · simp
    · exact I.core.sound.noAb k hk
  ended := fun y => by
    show (decide (y = x) || g.ended y) = false ↔ upd s.st x (.committed c) y = .running
    unfold upd
    by_cases e : y = x
    · simp [e]
    · simp [e, I.ended y]
  leaving := I.leaving
  modes := I.modes
  act := fun k hk hr => I.act k hk (upd_running (by simp) hr).2
  cover := fun a ha hr => I.cover a ha (upd_running (by simp) hr).2
  val := I.val.commit nab run

theorem Inv.startAbort {s : St} {g : Log} {L : List Hdr} {t x : Nat} (I : Inv s g L t) :
    Inv { s with aborting := upd s.aborting x true } (g.step (.leaving x)) L t where
  row := I.row
  core := ⟨I.core.stored, I.core.flags, I.core.sound, I.core.lt, I.core.pos, I.core.own, I.core.ins,
    I.core.bottom, I.core.insRow, I.core.insOne, I.core.dec, I.core.items⟩
  ended := I.ended
  leaving := fun y => by
    show (decide (y = x) || g.leaving y) = upd s.aborting x true y
    unfold upd
    by_cases e : y = x
    · simp [e]
    · simp [e, I.leaving y]
  modes := I.modes
  act := I.act
  cover := fun a ha hr hb => by
    refine I.cover a ha hr ?_
    have hb : upd s.aborting x true a.who = false := hb
    unfold upd at hb
    split at hb
    · cases hb
    · exact hb
  val := I.val.leave

theorem Inv.endAbort {s : St} {g : Log} {L : List Hdr} {t x : Nat} (I : Inv s g L t)
    (run : s.st x = .running) (hst : s.stack x = []) :
    Inv { s with st := upd s.st x .aborted } (g.step (.left x)) L t := by
  have no : ∀ h ∈ L, h.oxid ≠ x := by
    intro h hh e
    by_cases h0 : h.loc = 0
    · obtain ⟨l, hl, _⟩ := I.core.ins h hh (by rw [e]; exact run) h0
      rw [e, hst] at hl
      simp at hl
    · have := I.core.own h hh (by rw [e]; exact run) h0
      rw [e, hst] at this
      simp at this
  refine ⟨I.row, ?_, ?_, I.leaving, ?_, ?_, ?_, ?_⟩
  · refine I.core.settle (fun y hy => (upd_running (by simp) hy).2) ?_
    intro k hk
    simp only [upd, no k hk, if_false]
    exact I.core.sound.noAb k hk
  · intro y
    show (decide (y = x) || g.ended y) = false ↔ upd s.st x .aborted y = .running
    unfold upd
    by_cases e : y = x
    · simp [e]
    · simp [e, I.ended y]
  · intro a ha
    exact I.modes a (List.mem_filter.1 ha).1
  · intro k hk hr
    obtain ⟨a, ha, e1, e2⟩ := I.act k hk (upd_running (by simp) hr).2
    refine ⟨a, List.mem_filter.2 ⟨ha, ?_⟩, e1, e2⟩
    simpa [e1] using no k hk
  · intro a ha hr hb
    exact I.cover a (List.mem_filter.1 ha).1 (upd_running (by simp) hr).2 hb
  · exact I.val.left no

/-- Undo space used by other rows. -/
theorem Inv.other {s : St} {g : Log} {L : List Hdr} {t n : Nat} (I : Inv s g L t) :
    Inv { s with next := s.next + n } g L t := by
  refine ⟨I.row, ?_, I.ended, I.leaving, I.modes, I.act, I.cover, I.val⟩
  refine ⟨I.core.stored, I.core.flags, I.core.sound, ?_, ?_, I.core.own, I.core.ins,
    I.core.bottom, I.core.insRow, I.core.insOne, I.core.dec, ?_⟩
  · intro h hh
    have := I.core.lt h hh
    show h.loc < s.next + n
    omega
  · have := I.core.pos
    show 0 < s.next + n
    omega
  · intro x a ha
    have := I.core.items x a ha
    show 0 < a.1 ∧ a.1 < s.next + n
    omega

/-- Taking the newest record from the stack of a transaction that rolls back,
with the chain `L'` that is left. -/
theorem Inv.pop {s : St} {g : Log} {L L' : List Hdr} {t t' x l : Nat} {k : Kind}
    {rest : List (Nat × Kind)} {row : Option Row} {r : Recs} {gone : Hdr → Prop}
    (I : Inv s g L t) (hab : s.aborting x = true)
    (hst : s.stack x = (l, k) :: rest)
    (hrow : (row = none ∧ L' = []) ∨ ∃ h L'', row = some ⟨h, t'⟩ ∧ L' = h :: L'')
    (K : Stored r L') (F : Flags L') (S : Sound s.st s.ipLow L') (R : Red gone L L')
    (G : ∀ h, gone h → h.oxid = x ∧ (h.loc = 0 → k = .ins))
    (h1 : ∀ h ∈ L', h.oxid = x → h.loc ≠ 0 → h.loc ≠ l)
    (h0 : k = .ins → ∀ h ∈ L', h.oxid = x → h.loc ≠ 0)
    (V : Val s.st s.aborting (fun i => (r i).tup) t' L' g.acts) :
    Inv { s with stack := upd s.stack x rest, row := row, recs := r } g L' t' := by
  have C := I.core
  have dec := C.dec x
  rw [hst, List.pairwise_cons] at dec
  have up : ∀ y a, a ∈ upd s.stack x rest y → a ∈ s.stack y := by
    intro y a ha
    unfold upd at ha
    split at ha
    · next e => rw [e, hst]; exact List.mem_cons_of_mem _ ha
    · exact ha
  have down : ∀ y a, a ∈ s.stack y → (y = x → a ≠ (l, k)) → a ∈ upd s.stack x rest y := by
    intro y a ha hn
    unfold upd; split
    · next e =>
      rw [e, hst] at ha
      rcases List.mem_cons.1 ha with e' | ha
      · exact absurd e' (hn e)
      · exact ha
    · exact ha
  refine ⟨hrow, ?_, I.ended, I.leaving, I.modes, ?_, ?_, V⟩
  · refine ⟨K, F, S, ?_, C.pos, ?_, ?_, ?_, ?_, ?_, ?_, ?_⟩
    · intro h hh
      obtain ⟨h', hh', e⟩ := R.mem h hh
      rw [e]; exact C.lt h' hh'
    · intro h hh hr hl
      obtain ⟨h', hh', e⟩ := R.mem h hh
      have eq : (h'.loc, kindOf h') = (h.loc, kindOf h) ∧ h'.oxid = h.oxid := by
        rw [e]; exact ⟨rfl, rfl⟩
      have := C.own h' hh' (by rw [eq.2]; exact hr) (by
        have := congrArg Prod.fst eq.1
        dsimp only at this
        rw [this]; exact hl)
      rw [eq.1, eq.2] at this
      refine down _ _ this ?_
      intro ex ep
      cases ep
      exact h1 h hh ex hl rfl
    · intro h hh hr hl
      obtain ⟨h', hh', e⟩ := R.mem h hh
      have eq : h'.loc = h.loc ∧ h'.oxid = h.oxid := by
        rw [e]; exact ⟨rfl, rfl⟩
      obtain ⟨i, i1, i2⟩ := C.ins h' hh' (by rw [eq.2]; exact hr) (by rw [eq.1]; exact hl)
      refine ⟨i, ?_, ?_⟩
      · refine down _ _ (by rw [← eq.2]; exact i1) ?_
        intro ex ep
        cases ep
        exact h0 rfl h hh ex hl
      · intro j hj ho hjl
        obtain ⟨j', hj', e'⟩ := R.mem j hj
        have eq' : j'.loc = j.loc ∧ j'.oxid = j.oxid := by
          rw [e']; exact ⟨rfl, rfl⟩
        have := i2 j' hj' (by rw [eq'.2, ho, eq.2]) (by rw [eq'.1]; exact hjl)
        rw [eq'.1] at this; exact this
    · intro h hh
      obtain ⟨h', hh', e⟩ := R.mem h hh
      rw [e]; exact C.bottom h' hh'
    · intro y i hr hm
      obtain ⟨h, hh, e1, e2⟩ := C.insRow y i hr (up y _ hm)
      by_cases hg : gone h
      · obtain ⟨g1, g2⟩ := G h hg
        have hk := g2 e2
        subst hk
        have ex : y = x := by rw [← e1, g1]
        subst ex
        have m2 : (l, Kind.ins) ∈ s.stack y := by rw [hst]; exact List.mem_cons_self
        have := C.insOne y i l hr (up y _ hm) m2
        subst this
        have hm : (i, Kind.ins) ∈ upd s.stack y rest y := hm
        simp only [upd, if_true] at hm
        have := dec.1 _ hm
        simp at this
      · obtain ⟨b, hb⟩ := R.mem' h hh hg
        exact ⟨_, hb, e1, e2⟩
    · intro y i i' hr m1 m2
      exact C.insOne y i i' hr (up y _ m1) (up y _ m2)
    · intro y
      show (upd s.stack x rest y).Pairwise _
      unfold upd; split
      · exact dec.2
      · exact C.dec y
    · intro y a ha
      exact C.items y a (up y _ ha)
  · intro h hh hr
    obtain ⟨h', hh', e⟩ := R.mem h hh
    rw [e] at hr ⊢
    exact I.act h' hh' hr
  · intro a ha hr hb
    obtain ⟨h, hh, e1, e2⟩ := I.cover a ha hr hb
    have : ¬ gone h := by
      intro hg
      have := (G h hg).1
      rw [e1] at this
      have hb : s.aborting a.who = false := hb
      rw [this, hab] at hb; cases hb
    obtain ⟨b, hb⟩ := R.mem' h hh this
    exact ⟨_, hb, e1, e2⟩

/-- The locks on top of the chain. -/
theorem split_locks {st : Nat → Status} {ipLow : Bool} {r : Recs} :
    ∀ {L : List Hdr}, L ≠ [] → Stored r L → Sound st ipLow L →
      ∃ Ls h R, L = Ls ++ h :: R ∧ (∀ k ∈ Ls, k.lockOnly = true) ∧ h.lockOnly = false
  | [], hn, _, _ => absurd rfl hn
  | h :: L, _, K, S => by
    cases hl : h.lockOnly with
    | false => exact ⟨[], h, L, rfl, by simp, hl⟩
    | true =>
      have h0 := S.lockLoc h (by simp) hl
      cases L with
      | nil => exact absurd K h0
      | cons g L =>
        have S' : Sound st ipLow (g :: L) := S.red (.skip (Or.inl hl) (.refl _))
        obtain ⟨Ls, k, R, e, e1, e2⟩ := split_locks (by simp) K.2.2.2 S'
        refine ⟨h :: Ls, k, R, by rw [e]; rfl, ?_, e2⟩
        intro j hj
        rcases List.mem_cons.1 hj with e | hj
        · rw [e]; exact hl
        · exact e1 j hj

theorem findNonLock_spec {r : Recs} : ∀ (Ls : List Hdr) (n l : Nat) (page h : Hdr) (R t : List Hdr),
    Stored r (Ls ++ h :: R) → Ls ++ h :: R = page :: t → (∀ k ∈ Ls, k.lockOnly = true) →
    h.lockOnly = false → Ls.length < n →
    findNonLock r n page l = (h, ((Ls.map (fun h => h.loc)).getLast?).getD l)
  | [], n, l, page, h, R, t, K, e, _, hl, hn => by
    simp at e
    cases n with
    | zero => omega
    | succ n =>
      unfold findNonLock
      rw [if_neg (by rw [← e.1, hl]; simp), e.1]
      rfl
  | k :: Ls, n, l, page, h, R, t, K, e, hk, hl, hn => by
    simp at e
    obtain ⟨e1, e2⟩ := e
    subst e1
    have hkl := hk k (by simp)
    cases n with
    | zero => omega
    | succ n =>
      unfold findNonLock
      rw [if_pos hkl]
      have K' : Stored r (k :: (Ls ++ h :: R)) := K
      obtain ⟨p', t', ep⟩ : ∃ p' t', Ls ++ h :: R = p' :: t' := by
        cases Ls with
        | nil => exact ⟨h, R, rfl⟩
        | cons p Ls => exact ⟨p, Ls ++ h :: R, rfl⟩
      rw [ep] at K'
      rw [if_neg K'.1, K'.2.1]
      have K2 := K'.2.2.2
      rw [← ep] at K2
      rw [findNonLock_spec Ls n k.loc p' h R t' K2 ep
        (fun j hj => hk j (List.mem_cons_of_mem _ hj)) hl (by simp at hn; omega)]
      cases Ls with
      | nil => rfl
      | cons p Ls => simp [List.getLast?_cons]

end Verif.RowLocks
