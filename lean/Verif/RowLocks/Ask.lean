/-
Requests keep the invariant and the promise.
-/
import Verif.RowLocks.Inv

namespace Verif.RowLocks

/-- Removing locks of transactions that have ended. -/
theorem Inv.walk {s : St} {g : Log} {L L' : List Hdr} {t x : Nat} {h : Hdr} {r : Recs}
    (I : Inv s g L t) (R : Red (Gone s.st x) L L') (K : Stored r L') (F : Flags L')
    (hd : ∃ L'', L' = h :: L'') (tup : ∀ l, (r l).tup = (s.recs l).tup) :
    Inv { s with row := some ⟨h, t⟩, recs := r } g L' t where
  row := by
    obtain ⟨L'', e⟩ := hd
    exact Or.inr ⟨h, L'', rfl, e⟩
  core := I.core.red (R.mono (fun _ k => Gone.lock k)) K F
  ended := I.ended
  leaving := I.leaving
  modes := I.modes
  act := fun k hk hr => by
    obtain ⟨k', hk', e⟩ := R.mem k hk
    rw [e] at hr ⊢
    exact I.act k' hk' hr
  cover := fun a ha hr hb => by
    obtain ⟨k, hk, h1, h2⟩ := I.cover a ha hr hb
    have : ¬ Gone s.st x k := by
      intro hg
      unfold Gone stale at hg
      simp only [Bool.and_eq_true, Bool.not_eq_true'] at hg
      have := inProgress_iff.2 (show s.st k.oxid = .running by rw [h1]; exact hr)
      rw [this] at hg
      cases hg.2
    obtain ⟨b, hb⟩ := R.mem' k hk this
    exact ⟨_, hb, h1, h2⟩
  val := by
    refine Val.frame (I.val.red (R.mono (fun _ k => Gone.lock k))) ?_
    intro k _
    exact tup k.loc

/-- A granted request that needs nothing new. -/
theorem Inv.note {s : St} {g : Log} {L : List Hdr} {t x mode : Nat} (I : Inv s g L t)
    (hm : mode ≤ 3) (h : ∃ k ∈ L, k.oxid = x ∧ mode ≤ k.mode) :
    Inv s { g with acts := ⟨x, mode, none⟩ :: g.acts } L t where
  row := I.row
  core := I.core
  ended := I.ended
  leaving := I.leaving
  modes := fun a ha => by
    rcases List.mem_cons.1 ha with e | ha
    · subst e; exact hm
    · exact I.modes a ha
  act := fun k hk hr => by
    obtain ⟨a, ha, e⟩ := I.act k hk hr
    exact ⟨a, List.mem_cons_of_mem _ ha, e⟩
  cover := fun a ha hr hb => by
    rcases List.mem_cons.1 ha with e | ha
    · subst e; exact h
    · exact I.cover a ha hr hb
  val := .lockAct rfl I.val

/-- A granted request that adds a header. -/
theorem Inv.grant {s : St} {g : Log} {L1 : List Hdr} {t : Nat} {x mode tup v : Nat}
    {h : Hdr} {L : List Hdr} {r : Recs} {lockOnly deleted : Bool}
    {val : Option (Option Nat)} (I : Inv s g L1 t)
    (R : Red (fun k => ownWeak x mode k = true) L1 (h :: L)) (K : Stored r (h :: L))
    (F : Flags (h :: L)) (T : ∀ l, (r l).tup = (s.recs l).tup)
    (run : s.st x = .running) (hm : mode ≤ 3)
    (hm2 : lockOnly = false → 2 ≤ mode)
    (nobad : ∀ k ∈ h :: L, k.oxid ≠ x → s.st k.oxid = .running → conflicts k.mode mode = false)
    (hmono : s.ipLow = true → lockOnly = false →
      ∀ k ∈ h :: L, k.oxid = x → k.lockOnly = false → k.mode ≤ mode)
    (h3 : lockOnly = true → ∀ k ∈ h :: L, k.oxid = x → k.mode ≠ 3)
    (h1 : lockOnly = true → ∀ k ∈ h :: L, k.oxid = x → k.lockOnly = false)
    (hd : (lockOnly = true ∨ mode ≠ 3) → deleted = false ∧ h.deleted = false)
    (hv : (lockOnly = true ∧ val = none ∧ v = t) ∨
      (lockOnly = false ∧ val = some (if deleted then none else some v) ∧
        (if deleted then v else tup) = t)) :
    Inv { ({ s with recs := r } : St).record x (if lockOnly then .lock else .mod) h tup with
            row := some ⟨newHdr s x mode lockOnly deleted h, v⟩ }
      { g with acts := ⟨x, mode, val⟩ :: g.acts }
      (newHdr s x mode lockOnly deleted h :: h :: L) v := by
  have weakLock : ∀ k, ownWeak x mode k = true → k.lockOnly = true := by
    intro k hk
    unfold ownWeak at hk
    simp only [Bool.and_eq_true] at hk
    exact hk.1.1
  have C : Core { s with recs := r } (h :: L) := by
    have := I.core.red (row := s.row) (R.mono weakLock) K F
    exact this
  refine ⟨Or.inr ⟨_, _, rfl, rfl⟩, ?_, I.ended, I.leaving, ?_, ?_, ?_, ?_⟩
  · exact C.push run hm hm2 nobad hmono h3 h1 hd
  · intro a ha
    rcases List.mem_cons.1 ha with e | ha
    · subst e; exact hm
    · exact I.modes a ha
  · intro k hk hr
    rcases List.mem_cons.1 hk with e | hk
    · exact ⟨_, List.mem_cons_self, by rw [e]; exact ⟨rfl, rfl⟩⟩
    · obtain ⟨k', hk', e⟩ := R.mem k hk
      rw [e] at hr ⊢
      obtain ⟨a, ha, e⟩ := I.act k' hk' hr
      exact ⟨a, List.mem_cons_of_mem _ ha, e⟩
  · intro a ha hr hb
    rcases List.mem_cons.1 ha with e | ha
    · subst e; exact ⟨_, List.mem_cons_self, rfl, Nat.le_refl _⟩
    · obtain ⟨k, hk, e1, e2⟩ := I.cover a ha hr hb
      by_cases hw : ownWeak x mode k = true
      · refine ⟨_, List.mem_cons_self, ?_⟩
        unfold ownWeak at hw
        simp only [Bool.and_eq_true, decide_eq_true_eq] at hw
        exact ⟨by rw [← e1, hw.1.2]; rfl, Nat.le_trans e2 hw.2⟩
      · obtain ⟨b, hb⟩ := R.mem' k hk hw
        exact ⟨_, List.mem_cons_of_mem _ hb, e1, e2⟩
  · have V : Val s.st s.aborting
        (fun l => ((({ s with recs := r } : St).record x (if lockOnly then .lock else .mod) h tup).recs
          l).tup) t (h :: L) g.acts := by
      refine Val.frame (I.val.red (R.mono weakLock)) ?_
      intro k hk
      have := C.lt k hk
      have hn : k.loc ≠ s.next := by
        have : k.loc < s.next := this
        omega
      simp only [St.record, hn, if_false]
      exact T k.loc
    rcases hv with ⟨hl, hv, ev⟩ | ⟨hl, hv, ev⟩
    · subst ev
      exact .lockAct hv (.lockHdr hl V)
    · refine .run hl run rfl ?_ ?_
      · rw [hv]; rfl
      · have : (if deleted = true then v else
            ((({ s with recs := r } : St).record x (if lockOnly then .lock else .mod) h tup).recs
              s.next).tup) = t := by
          rw [← ev]
          simp [St.record]
        show Val _ _ _ (if deleted = true then v else
            ((({ s with recs := r } : St).record x (if lockOnly then .lock else .mod) h tup).recs
              s.next).tup) _ _
        rw [this]; exact V

/-- The first insertion of the row. -/
theorem Inv.insert {s : St} {g : Log} {t x v : Nat} (I : Inv s g [] t)
    (run : s.st x = .running) :
    Inv { s.record x .ins ⟨0, 0, false, 0, false, false⟩ 0 with
            row := some ⟨⟨x, 3, false, 0, false, false⟩, v⟩ }
      { g with acts := ⟨x, 3, some (some v)⟩ :: g.acts }
      [⟨x, 3, false, 0, false, false⟩] v := by
  have C := I.core
  have noIns : ∀ y l, s.st y = .running → (l, Kind.ins) ∉ s.stack y := by
    intro y l hr hm
    obtain ⟨h, hh, _⟩ := C.insRow y l hr hm
    simp at hh
  have mem : ∀ y a, a ∈ upd s.stack x ((s.next, Kind.ins) :: s.stack x) y →
      (y = x ∧ a = (s.next, Kind.ins)) ∨ a ∈ s.stack y := by
    intro y a ha
    unfold upd at ha
    split at ha
    · next e =>
      rcases List.mem_cons.1 ha with e' | ha
      · exact Or.inl ⟨e, e'⟩
      · rw [e]; exact Or.inr ha
    · exact Or.inr ha
  refine ⟨Or.inr ⟨_, _, rfl, rfl⟩, ?_, I.ended, I.leaving, ?_, ?_, ?_, ?_⟩
  · refine ⟨rfl, ⟨by simp, trivial⟩, ?_, ?_, ?_, ?_, ?_, ?_, ?_, ?_, ?_, ?_⟩
    · refine ⟨?_, ?_, ?_, ?_, ?_, ?_, ?_, ?_, ?_⟩
      · intro k hk
        rw [List.mem_singleton.1 hk]
        show s.st x ≠ _
        rw [run]; simp
      · intro k hk; rw [List.mem_singleton.1 hk]; simp
      · intro k hk; rw [List.mem_singleton.1 hk]; simp
      · intro k hk; rw [List.mem_singleton.1 hk]; simp
      · simp
      · simp
      · simp
      · simp
      · intro _; rfl
    · intro k hk
      rw [List.mem_singleton.1 hk]
      show 0 < s.next + 1
      omega
    · show 0 < s.next + 1
      omega
    · intro k hk _ h0
      rw [List.mem_singleton.1 hk] at h0
      exact absurd rfl h0
    · intro k hk _ _
      refine ⟨s.next, ?_, ?_⟩
      · rw [List.mem_singleton.1 hk]
        show _ ∈ upd s.stack x _ x
        simp [upd]
      · intro j hj _ h0
        rw [List.mem_singleton.1 hj] at h0
        exact absurd rfl h0
    · intro k hk _
      rw [List.mem_singleton.1 hk]
      exact ⟨rfl, rfl⟩
    · intro y l hr hm
      rcases mem y _ hm with ⟨e, _⟩ | hm
      · exact ⟨_, List.mem_singleton.2 rfl, e.symm, rfl⟩
      · exact absurd hm (noIns y l hr)
    · intro y l l' hr m1 m2
      rcases mem y _ m1 with ⟨e, e1⟩ | m1
      · rcases mem y _ m2 with ⟨e, e2⟩ | m2
        · cases e1; cases e2; rfl
        · exact absurd m2 (noIns y l' hr)
      · exact absurd m1 (noIns y l hr)
    · intro y
      show (upd s.stack x _ y).Pairwise _
      unfold upd; split
      · exact List.Pairwise.cons (fun a ha => (C.items x a ha).2) (C.dec x)
      · exact C.dec y
    · intro y a ha
      show 0 < a.1 ∧ a.1 < s.next + 1
      have := C.pos
      rcases mem y _ ha with ⟨e, e1⟩ | ha
      · rw [e1]; dsimp only; omega
      · have := C.items y a ha; omega
  · intro a ha
    rcases List.mem_cons.1 ha with e | ha
    · subst e; simp
    · exact I.modes a ha
  · intro k hk _
    rw [List.mem_singleton.1 hk]
    exact ⟨_, List.mem_cons_self, rfl, rfl⟩
  · intro a ha hr hb
    rcases List.mem_cons.1 ha with e | ha
    · subst e; exact ⟨_, List.mem_singleton.2 rfl, rfl, Nat.le_refl _⟩
    · obtain ⟨k, hk, _⟩ := I.cover a ha hr hb
      simp at hk
  · refine .run rfl run rfl rfl ?_
    refine Val.frame (Val.nil I.val) ?_
    intro k hk
    simp at hk

/-- What is known when a request is carried out. -/
structure Clear (s : St) (x mode : Nat) (w : Want) (redundant : Bool) (status : Nat)
    (L : List Hdr) : Prop where
  nobad : ∀ k ∈ L, k.oxid ≠ x → s.st k.oxid = .running → conflicts k.mode mode = false
  mono : s.ipLow = true → w ≠ .lock → ∀ k ∈ L, k.oxid = x → k.lockOnly = false → k.mode ≤ mode
  st2 : status = 2 → ∃ k ∈ L, k.oxid = x ∧ mode ≤ k.mode
  st1 : status ≠ 2 → ∀ k ∈ L, k.oxid = x →
    k.mode < mode ∨ (k.lockOnly = false ∧ conflicts k.mode mode = false)
  red : redundant = false → ∀ k ∈ L, k.oxid = x → k.lockOnly = true → mode < k.mode

/-- The own locks that are not stronger are gone before a header is added. -/
theorem purge_spec {s : St} {g : Log} {h : Hdr} {L : List Hdr} {t x mode : Nat}
    {redundant : Bool} (I : Inv s g (h :: L) t) (run : s.st x = .running)
    (hr : redundant = false → ∀ k ∈ h :: L, k.oxid = x → k.lockOnly = true → mode < k.mode) :
    ∃ h' L' r, (if redundant then removeRedundant (s.next + 2) s.st x mode h s.recs
        else (h, s.recs)) = (h', r) ∧
      Red (fun k => ownWeak x mode k = true) (h :: L) (h' :: L') ∧ Stored r (h' :: L') ∧
      Flags (h' :: L') ∧ (∀ l, (r l).tup = (s.recs l).tup) ∧
      (∀ k ∈ h' :: L', ownWeak x mode k = false) ∧ (h.deleted = false → h'.deleted = false) := by
  cases redundant with
  | false =>
    refine ⟨h, L, s.recs, by simp, .refl _, I.core.stored, I.core.flags, fun _ => rfl, ?_, fun e => e⟩
    intro k hk
    cases hw : ownWeak x mode k with
    | false => rfl
    | true =>
      unfold ownWeak at hw
      simp only [Bool.and_eq_true, decide_eq_true_eq] at hw
      have := hr rfl k hk hw.1.2 hw.1.1
      omega
  | true =>
    have hlen : L.length + 1 < s.next + 2 := by
      have := Stored.length I.core.stored
      have := I.core.lt h (by simp)
      omega
    obtain ⟨L1, c⟩ := removeRedundant_spec (mode := mode) run I.core.stored I.core.flags I.core.sound hlen
    obtain ⟨t', e⟩ := c.head
    generalize removeRedundant (s.next + 2) s.st x mode h s.recs = hr at *
    obtain ⟨h', r⟩ := hr
    dsimp only at *
    subst e
    refine ⟨h', t', r, by simp, c.red, c.stored, c.flags, c.tup, ?_, ?_⟩
    · intro k hk
      have := c.none k hk
      simpa using this
    · intro hd
      have soft' : Red soft (h :: L) (h' :: t') := by
        refine c.red.mono ?_
        intro k hk
        unfold ownWeak at hk
        simp only [Bool.and_eq_true] at hk
        exact Or.inl hk.1.1
      have := (soft'.del I.core.sound.del).2 false (by
        intro k t e
        cases e
        exact Or.inl hd) h' t' rfl
      rcases this with e | e <;> exact e

theorem perform_spec {s : St} {g : Log} {h : Hdr} {L : List Hdr} {t x mode : Nat} {w : Want}
    {redundant : Bool} {status : Nat} (I : Inv s g (h :: L) t) (hrow : s.row = some ⟨h, t⟩)
    (run : s.st x = .running) (mok : w.modeOk mode = true)
    (C : Clear s x mode w redundant status (h :: L)) :
    ((s.perform x mode w ⟨h, t⟩ redundant status).2 = .done ∨
     (s.perform x mode w ⟨h, t⟩ redundant status).2 = .exists_ ∨
     (s.perform x mode w ⟨h, t⟩ redundant status).2 = .missing) ∧
    ∃ L' t', Inv (s.perform x mode w ⟨h, t⟩ redundant status).1
      (g.step (.answered x mode w (s.perform x mode w ⟨h, t⟩ redundant status).2)) L' t' := by
  have same : ({ s with row := some ⟨h, t⟩ } : St) = s := by
    rw [← hrow]
  obtain ⟨h', L', r, eh, R, K, F, T, W, D⟩ := purge_spec I run C.red
  -- facts on the purged chain
  have nobad' : ∀ k ∈ h' :: L', k.oxid ≠ x → s.st k.oxid = .running →
      conflicts k.mode mode = false := by
    intro k hk
    obtain ⟨j, hj, e⟩ := R.mem k hk
    rw [e]; exact C.nobad j hj
  have mono' : w ≠ .lock → s.ipLow = true →
      ∀ k ∈ h' :: L', k.oxid = x → k.lockOnly = false → k.mode ≤ mode := by
    intro hw hi k hk
    obtain ⟨j, hj, e⟩ := R.mem k hk
    rw [e]; exact C.mono hi hw j hj
  unfold St.perform
  dsimp only
  by_cases hdel : h.deleted = true
  · rw [if_pos hdel]
    cases w with
    | insert v =>
      dsimp only
      have hm : mode = 3 := by simpa [Want.modeOk] using mok
      refine ⟨Or.inl rfl, newHdr s x mode false false h :: h :: L, v, ?_⟩
      have := Inv.grant (x := x) (mode := mode) (lockOnly := false) (deleted := false)
        (tup := t) (v := v) (val := some (some v)) I (.refl _) I.core.stored I.core.flags
        (fun _ => rfl) run (by omega)
        (fun _ => by omega) C.nobad
        (fun hi _ => C.mono hi (by simp)) (fun e => by cases e) (fun e => by cases e)
        (fun e => e.elim (fun e => by cases e) (fun e => absurd hm e))
        (Or.inr ⟨rfl, rfl, rfl⟩)
      exact this
    | update v => dsimp only; rw [same]; exact ⟨Or.inr (Or.inr rfl), _, _, I⟩
    | delete => dsimp only; rw [same]; exact ⟨Or.inr (Or.inr rfl), _, _, I⟩
    | lock => dsimp only; rw [same]; exact ⟨Or.inr (Or.inr rfl), _, _, I⟩
  · rw [if_neg hdel]
    have hd0 : h.deleted = false := by simpa using hdel
    cases w with
    | insert v => dsimp only; rw [same]; exact ⟨Or.inr (Or.inl rfl), _, _, I⟩
    | lock =>
      dsimp only
      have hm : mode ≤ 3 := by simpa [Want.modeOk] using mok
      by_cases hs : status = 2
      · rw [if_pos hs, same]
        refine ⟨Or.inl rfl, h :: L, t, ?_⟩
        exact I.note hm (C.st2 hs)
      · rw [if_neg hs, eh]
        dsimp only
        refine ⟨Or.inl rfl, newHdr s x mode true false h' :: h' :: L', t, ?_⟩
        have own1 : ∀ k ∈ h' :: L', k.oxid = x →
            k.lockOnly = false ∧ (k.mode < mode ∨ conflicts k.mode mode = false) := by
          intro k hk ho
          have hw := W k hk
          obtain ⟨j, hj, e⟩ := R.mem k hk
          have ho' : j.oxid = x := by rw [e] at ho; exact ho
          have em : k.mode = j.mode := by rw [e]
          have el : k.lockOnly = j.lockOnly := by rw [e]
          rcases C.st1 hs j hj ho' with hlt | ⟨h1, h2⟩
          · refine ⟨?_, Or.inl (by rw [em]; exact hlt)⟩
            cases hl : k.lockOnly with
            | false => rfl
            | true =>
              unfold ownWeak at hw
              rw [hl, ho] at hw
              simp at hw
              omega
          · exact ⟨by rw [el]; exact h1, Or.inr (by rw [em]; exact h2)⟩
        have := Inv.grant (x := x) (mode := mode) (lockOnly := true) (deleted := false)
          (tup := 0) (v := t) (val := none) I R K F T run hm (fun e => by cases e) nobad'
          (fun _ e => by cases e)
          (fun _ k hk ho => by
            rcases (own1 k hk ho).2 with h1 | h1
            · omega
            · unfold conflicts at h1; simp at h1; omega)
          (fun _ k hk ho => (own1 k hk ho).1)
          (fun _ => ⟨rfl, D hd0⟩)
          (Or.inl ⟨rfl, rfl, rfl⟩)
        exact this
    | update v =>
      dsimp only
      have hm : mode = 2 ∨ mode = 3 := by simpa [Want.modeOk] using mok
      rw [eh]
      dsimp only
      refine ⟨Or.inl rfl, newHdr s x mode false false h' :: h' :: L', v, ?_⟩
      have := Inv.grant (x := x) (mode := mode) (lockOnly := false) (deleted := false)
        (tup := t) (v := v) (val := some (some v)) I R K F T run (by omega)
        (fun _ => by omega) nobad'
        (fun hi _ => mono' (by simp) hi) (fun e => by cases e) (fun e => by cases e)
        (fun _ => ⟨rfl, D hd0⟩)
        (Or.inr ⟨rfl, rfl, rfl⟩)
      exact this
    | delete =>
      dsimp only
      have hm : mode = 3 := by simpa [Want.modeOk] using mok
      rw [eh]
      dsimp only
      refine ⟨Or.inl rfl, newHdr s x mode false true h' :: h' :: L', t, ?_⟩
      have := Inv.grant (x := x) (mode := mode) (lockOnly := false) (deleted := true)
        (tup := 0) (v := t) (val := some none) I R K F T run (by omega)
        (fun _ => by omega) nobad'
        (fun hi _ => mono' (by simp) hi) (fun e => by cases e) (fun e => by cases e)
        (fun e => e.elim (fun e => by cases e) (fun e => absurd hm e))
        (Or.inr ⟨rfl, rfl, rfl⟩)
      exact this

/-- No other transaction holds a lock that excludes the request. -/
theorem Inv.free {s : St} {g : Log} {L : List Hdr} {t x mode : Nat} (I : Inv s g L t)
    (hm : mode ≤ 3)
    (nobad : ∀ k ∈ L, k.oxid ≠ x → s.st k.oxid = .running → conflicts k.mode mode = false) :
    ∀ y, y ≠ x → g.ended y = false → g.leaving y = false → ¬ g.holds y mode := by
  intro y hy he hl ⟨a, ha, ho, hc⟩
  have hr : s.st a.who = .running := by rw [ho]; exact (I.ended y).1 he
  obtain ⟨k, hk, e1, e2⟩ := I.cover a ha hr (by rw [ho, ← I.leaving]; exact hl)
  have hkm := I.core.sound.modes k hk
  have := nobad k hk (by rw [e1, ho]; exact hy) (by rw [e1]; exact hr)
  have hc' := (clash_iff (I.modes a ha) hm).1 hc
  unfold conflicts at this hc'
  simp at this hc'
  omega

/-- **A request** keeps the invariant and the promise. -/
theorem Inv.request {s : St} {g : Log} {L : List Hdr} {t x mode csn : Nat} {w : Want}
    (I : Inv s g L t) (run : s.st x = .running) (mok : w.modeOk mode = true)
    (reg : s.regular (.ask x mode csn w) = true) :
    g.ok (.answered x mode w (s.request x mode csn w).2) ∧
    ∃ L' t', Inv (s.request x mode csn w).1
      (g.step (.answered x mode w (s.request x mode csn w).2)) L' t' := by
  have hm : mode ≤ 3 := by
    cases w <;> simp [Want.modeOk] at mok <;> omega
  have okOf : ∀ o : Out, (o = .done ∨ o = .exists_ ∨ o = .missing) →
      (∀ y, y ≠ x → g.ended y = false → g.leaving y = false → ¬ g.holds y mode) →
      g.ok (.answered x mode w o) := by
    intro o ho hf
    rcases ho with e | e | e <;> subst e <;> exact hf
  rcases I.row with ⟨hrow, eL⟩ | ⟨h, L0, hrow, eL⟩
  · subst eL
    have free := I.free (x := x) hm (by simp)
    unfold St.request
    rw [hrow]
    cases w with
    | insert v =>
      dsimp only
      have hm : mode = 3 := by simpa [Want.modeOk] using mok
      subst hm
      exact ⟨okOf _ (Or.inl rfl) free, _, _, I.insert run⟩
    | update v => exact ⟨okOf _ (Or.inr (Or.inr rfl)) free, _, _, I⟩
    | delete => exact ⟨okOf _ (Or.inr (Or.inr rfl)) free, _, _, I⟩
    | lock => exact ⟨okOf _ (Or.inr (Or.inr rfl)) free, _, _, I⟩
  · subst eL
    have hloc := I.core.lt h (by simp)
    have hlen : L0.length ≤ h.loc := Stored.length I.core.stored
    have echain : chainOf s.recs s.next h = h :: L0 :=
      chainOf_stored s.next I.core.stored (by omega)
    simp only [St.regular, hrow, echain, Bool.and_eq_true, Bool.or_eq_true, Bool.not_eq_true',
      beq_iff_eq, List.all_eq_true, bne_iff_ne, ne_eq, decide_eq_true_eq] at reg
    obtain ⟨np, mn⟩ := reg
    obtain ⟨L1, Fn⟩ := rowLockConflicts_spec (fuel := s.next + 2)
      (E := (⟨mode, x, csn, s.st, s.ipLow⟩ : Env)) I.core.sound run I.core.stored I.core.flags np (by omega)
    unfold St.request
    rw [hrow]
    dsimp only
    generalize rowLockConflicts (s.next + 2) (⟨mode, x, csn, s.st, s.ipLow⟩ : Env) h s.recs = k at *
    obtain ⟨t1, e1⟩ := Fn.head
    have I1 : Inv { s with row := some ⟨k.page, t⟩, recs := k.recs } g L1 t :=
      I.walk Fn.red Fn.stored Fn.flags ⟨t1, e1⟩ Fn.tup
    subst e1
    rcases Fn.seen.conf with ⟨hc, hb⟩ | ⟨c, hc, k', hk', hb, ho⟩
    · -- nobody else conflicts
      have nobad : ∀ j ∈ k.page :: t1, j.oxid ≠ x → s.st j.oxid = .running →
          conflicts j.mode mode = false := by
        intro j hj h1 h2
        cases hcf : conflicts j.mode mode with
        | false => rfl
        | true => exact absurd ⟨h1, h2, hcf⟩ (hb j hj)
      have free := I1.free (x := x) hm nobad
      have C : Clear { s with row := some ⟨k.page, t⟩, recs := k.recs } x mode w k.redundant
          k.status (k.page :: t1) := by
        refine ⟨nobad, ?_, Fn.seen.st2, fun e => (Fn.seen.st1 e).2, Fn.seen.red⟩
        intro hi hw j hj ho hl
        obtain ⟨j', hj', e⟩ := Fn.red.mem j hj
        rcases mn with mn | mn
        · rcases mn with mn | mn
          · have hi : s.ipLow = true := hi
            rw [mn] at hi; cases hi
          · exact absurd mn hw
        · have := mn j' hj'
          rw [e] at ho hl ⊢
          dsimp only at ho hl ⊢
          rw [ho, hl] at this
          simpa using this
      obtain ⟨p1, p2⟩ := perform_spec I1 rfl run mok C
      cases hcc : k.conf with
      | none => exact ⟨okOf _ p1 free, p2⟩
      | some c =>
        have := hc c hcc
        have this : c.oxid = x := this
        simp only [this, if_true]
        exact ⟨okOf _ p1 free, p2⟩
    · -- somebody else conflicts
      have hne : c.oxid ≠ x := by rw [← ho]; exact hb.1
      have hrun : s.st c.oxid = .running := by rw [← ho]; exact hb.2.1
      rw [hc]
      simp only [hne, if_false, hrun]
      refine ⟨⟨hne, (I.ended _).2 hrun, ?_⟩, _, _, I1⟩
      obtain ⟨a, ha, a1, a2⟩ := I1.act k' hk' hb.2.1
      refine ⟨a, ha, by rw [a1, ho], ?_⟩
      refine (clash_iff (I.modes a ha) hm).2 ?_
      rw [a2]; exact hb.2.2

end Verif.RowLocks
