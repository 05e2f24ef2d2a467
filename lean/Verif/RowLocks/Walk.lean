/-
What `row_lock_conflicts` does to the chain and what it finds.
-/
import Verif.RowLocks.Chain
import Verif.RowLocks.Spec

namespace Verif.RowLocks

/-- A header whose row was not deleted, before and after. -/
def soft (h : Hdr) : Prop := h.lockOnly = true ∨ h.mode ≠ 3

/-- Locks and changes that keep the key are made on rows that are there, and
leave them there. -/
def Del : List Hdr → Prop
  | [] => True
  | [h] => soft h → h.deleted = false
  | h :: g :: t => (soft h → h.deleted = false ∧ g.deleted = false) ∧ Del (g :: t)

theorem Del.tail {h : Hdr} {t : List Hdr} (H : Del (h :: t)) : Del t := by
  cases t with
  | nil => trivial
  | cons g t => exact H.2

theorem Del.drop : ∀ {P Q : List Hdr}, Del (P ++ Q) → Del Q
  | [], _, H => H
  | _ :: P, Q, H => Del.drop (P := P) (Q := Q) (Del.tail H)

theorem Del.self {h : Hdr} {t : List Hdr} (H : Del (h :: t)) (s : soft h) :
    h.deleted = false := by
  cases t with
  | nil => exact H s
  | cons g t => exact (H.1 s).1

/-- The facts about the owners of a chain. -/
structure Sound (st : Nat → Status) (ipLow : Bool) (L : List Hdr) : Prop where
  noAb : ∀ h ∈ L, st h.oxid ≠ .aborted
  modes : ∀ h ∈ L, h.mode ≤ 3
  change : ∀ h ∈ L, h.lockOnly = false → 2 ≤ h.mode
  lockLoc : ∀ h ∈ L, h.lockOnly = true → h.loc ≠ 0
  excl : L.Pairwise (fun g h => st h.oxid = .running →
    g.oxid = h.oxid ∨ conflicts g.mode h.mode = false)
  mono : ipLow = true → L.Pairwise (fun g h => st h.oxid = .running → g.oxid = h.oxid →
    g.lockOnly = false → h.lockOnly = false → h.mode ≤ g.mode)
  lock3 : L.Pairwise (fun g h => st h.oxid = .running → g.lockOnly = true → h.mode ≠ 3)
  oneLock : L.Pairwise (fun g h => st h.oxid = .running → g.lockOnly = true →
    h.lockOnly = true → g.oxid ≠ h.oxid)
  del : Del L

/-- A lock the walk removes. -/
abbrev Gone (st : Nat → Status) (me : Nat) (h : Hdr) : Prop := stale st me h = true

theorem Red.del {a b : List Hdr}
    (H : Red soft a b) (D : Del a) :
    Del b ∧ (∀ (d : Bool), (∀ h t, a = h :: t → h.deleted = d ∨ h.deleted = false) →
      (∀ h t, b = h :: t → h.deleted = d ∨ h.deleted = false)) := by
  induction H with
  | nil => exact ⟨trivial, fun _ _ h t e => by cases e⟩
  | @keep h l l' c K ih =>
    obtain ⟨ih1, ih2⟩ := ih D.tail
    refine ⟨?_, ?_⟩
    · cases l' with
      | nil =>
        intro s
        exact D.self (h := h) s
      | cons g t =>
        refine ⟨?_, ih1⟩
        intro s
        have s' : soft h := s
        refine ⟨D.self s', ?_⟩
        have := ih2 false (by
          intro k t e
          subst e
          exact Or.inl (D.1 s').2) g t rfl
        rcases this with h | h <;> exact h
    · intro d hd k t e
      cases e
      exact hd h l rfl
  | @skip h l l' g K ih =>
    obtain ⟨ih1, ih2⟩ := ih D.tail
    refine ⟨ih1, ?_⟩
    intro d _ k t e
    have := ih2 false (by
      intro k' t' e'
      subst e'
      exact Or.inl (D.1 g).2) k t e
    rcases this with h | h <;> exact Or.inr h

theorem Red.mono {p q : Hdr → Prop} (h : ∀ x, p x → q x) {a b : List Hdr} (H : Red p a b) :
    Red q a b := by
  induction H with
  | nil => exact .nil
  | keep c _ ih => exact .keep c ih
  | skip g _ ih => exact .skip (h _ g) ih

theorem Gone.lock {st : Nat → Status} {me : Nat} {h : Hdr} (g : Gone st me h) :
    h.lockOnly = true := by
  unfold Gone stale at g
  simp only [Bool.and_eq_true] at g
  exact g.1.1

/-- Removing locks and flags keeps the facts. -/
theorem Sound.red {st : Nat → Status} {ipLow : Bool} {a b : List Hdr}
    (S : Sound st ipLow a) (H : Red soft a b) : Sound st ipLow b where
  noAb := fun h hh => by
    obtain ⟨g, hg, e⟩ := H.mem h hh
    rw [e]; exact S.noAb g hg
  modes := fun h hh => by
    obtain ⟨g, hg, e⟩ := H.mem h hh
    rw [e]; exact S.modes g hg
  change := fun h hh => by
    obtain ⟨g, hg, e⟩ := H.mem h hh
    rw [e]; exact S.change g hg
  lockLoc := fun h hh => by
    obtain ⟨g, hg, e⟩ := H.mem h hh
    rw [e]; exact S.lockLoc g hg
  excl := H.pairwise (fun _ _ _ _ h => h) S.excl
  mono := fun i => H.pairwise (fun _ _ _ _ h => h) (S.mono i)
  lock3 := H.pairwise (fun _ _ _ _ h => h) S.lock3
  oneLock := H.pairwise (fun _ _ _ _ h => h) S.oneLock
  del := (Red.del H S.del).1

/-- A header of another transaction in progress that conflicts. -/
def Bad (E : Env) (h : Hdr) : Prop :=
  h.oxid ≠ E.me ∧ E.st h.oxid = .running ∧ conflicts h.mode E.mode = true

/-- What the walk has found out about the headers `P`. -/
structure Seen (E : Env) (w : Walk) (P : List Hdr) : Prop where
  conf : ((∀ c, w.conf = some c → c.oxid = E.me) ∧ ∀ h ∈ P, ¬ Bad E h) ∨
    (∃ c, w.conf = some c ∧ ∃ h ∈ P, Bad E h ∧ h.oxid = c.oxid)
  st2 : w.status = 2 → ∃ h ∈ P, h.oxid = E.me ∧ E.mode ≤ h.mode
  st1 : w.status ≠ 2 → w.status ≤ 1 ∧ ∀ h ∈ P, h.oxid = E.me →
    h.mode < E.mode ∨ (h.lockOnly = false ∧ conflicts h.mode E.mode = false)
  red : w.redundant = false → ∀ h ∈ P, h.oxid = E.me → h.lockOnly = true → E.mode < h.mode

/-- Only three of the variables matter for it. -/
theorem Seen.of {E : Env} {w w' : Walk} {P : List Hdr} (S : Seen E w P)
    (h1 : w'.conf = w.conf) (h2 : w'.status = w.status) (h3 : w'.redundant = w.redundant) :
    Seen E w' P where
  conf := by rw [h1]; exact S.conf
  st2 := by rw [h2]; exact S.st2
  st1 := by rw [h2]; exact S.st1
  red := by rw [h3]; exact S.red

/-- Same headers up to the flag. -/
abbrev Same (a b : List Hdr) : Prop := Red (fun _ => False) a b

theorem Same.length {a b : List Hdr} (H : Same a b) : b.length = a.length := by
  induction H with
  | nil => rfl
  | keep _ _ ih => simp [ih]
  | skip g => exact g.elim

theorem Same.locs {a b : List Hdr} (H : Same a b) :
    b.map (fun h => h.loc) = a.map (fun h => h.loc) := by
  induction H with
  | nil => rfl
  | keep _ _ ih => simp [ih]
  | skip g => exact g.elim

theorem Seen.same {E : Env} {w : Walk} {P P' : List Hdr} (S : Seen E w P) (H : Same P P') :
    Seen E w P' where
  conf := by
    rcases S.conf with ⟨h1, h2⟩ | ⟨c, h1, h, hh, hb, ho⟩
    · refine Or.inl ⟨h1, ?_⟩
      intro h hh
      obtain ⟨g, hg, e⟩ := H.mem h hh
      rw [e]; exact h2 g hg
    · obtain ⟨d, hd⟩ := H.mem' h hh (fun f => f)
      exact Or.inr ⟨c, h1, _, hd, hb, ho⟩
  st2 := fun e => by
    obtain ⟨h, hh, h1, h2⟩ := S.st2 e
    obtain ⟨d, hd⟩ := H.mem' h hh (fun f => f)
    exact ⟨_, hd, h1, h2⟩
  st1 := fun e => by
    refine ⟨(S.st1 e).1, ?_⟩
    intro h hh
    obtain ⟨g, hg, e'⟩ := H.mem h hh
    rw [e']; exact (S.st1 e).2 g hg
  red := fun e h hh => by
    obtain ⟨g, hg, e'⟩ := H.mem h hh
    rw [e']; exact S.red e g hg

/-- The result of the walk. -/
structure Fin (E : Env) (r0 : Recs) (L0 : List Hdr) (w : Walk) (L : List Hdr) : Prop where
  head : ∃ t, L = w.page :: t
  stored : Stored w.recs L
  flags : Flags L
  red : Red (Gone E.st E.me) L0 L
  tup : ∀ l, (w.recs l).tup = (r0 l).tup
  seen : Seen E w L

/-- The last lock before the current header. -/
def LastOK (last : Nat) (P : List Hdr) : Prop :=
  (last = 0 ∧ ∀ h ∈ P, h.lockOnly = false) ∨
  (∃ P1 k P2, P = P1 ++ k :: P2 ∧ k.loc = last ∧ ∀ h ∈ P2, h.lockOnly = false)

/-- The walk is at the header `w.cur`, with `P` behind it and `R` ahead. -/
structure Here (fuel : Nat) (E : Env) (r0 : Recs) (L0 : List Hdr) (w : Walk) (P R : List Hdr) :
    Prop where
  head : ∃ t, P ++ w.cur :: R = w.page :: t
  stored : Stored w.recs (P ++ w.cur :: R)
  flags : Flags (P ++ w.cur :: R)
  red : Red (Gone E.st E.me) L0 (P ++ w.cur :: R)
  tup : ∀ l, (w.recs l).tup = (r0 l).tup
  seen : Seen E w P
  len : (P ++ w.cur :: R).length < fuel
  pos : (P.map (fun h => h.loc)).getLast? = some w.curLoc ∨ stale E.st E.me w.cur = false
  nopair : noPair E.st E.me (w.cur :: R) = true
  last : (w.cur.chl = false ∧ w.cur.lockOnly = false) ∨ LastOK w.last P

/-- Cleaning the flags behind the current header. -/
theorem clean_spec {fuel last : Nat} {page : Hdr} {r : Recs} {P Q t : List Hdr}
    (H : Stored r (P ++ Q)) (hQ : Q ≠ []) (hh : P ++ Q = page :: t)
    (hf : (P ++ Q).length < fuel) (hl : LastOK last P) :
    ∃ P1 P2, P = P1 ++ P2 ∧ (∀ h ∈ P2, h.lockOnly = false) ∧
      (∃ t', P1 ++ clr (P2 ++ Q) = (cleanFlag fuel page r last).1 :: t') ∧
      Stored (cleanFlag fuel page r last).2 (P1 ++ clr (P2 ++ Q)) ∧
      (∀ l, ((cleanFlag fuel page r last).2 l).tup = (r l).tup) := by
  rcases hl with ⟨h0, hP⟩ | ⟨P1, k, P2, e, ek, hP⟩
  · refine ⟨[], P, rfl, hP, ?_⟩
    subst h0
    rw [hh] at H hf ⊢
    obtain ⟨t', h1, h2, h3, h4⟩ := cleanFlag_page fuel page t r H (by simp at hf; omega)
    exact ⟨⟨t', h1⟩, h2, h3⟩
  · refine ⟨P1 ++ [k], P2, by simp [e], hP, ?_⟩
    subst e ek
    have H' : Stored r (P1 ++ k :: (P2 ++ Q)) := by simpa using H
    obtain ⟨h1, h2, h3, h4⟩ := cleanFlag_below fuel page P1 k (P2 ++ Q) r H'
      (by simp at hf ⊢; omega) (by simp [hQ])
    refine ⟨?_, by simpa using h2, h3⟩
    rw [h1]
    cases P1 with
    | nil =>
      simp at hh
      exact ⟨clr (P2 ++ Q), by rw [hh.1]; rfl⟩
    | cons p P1 =>
      simp at hh
      exact ⟨_, by rw [hh.1]; rfl⟩

theorem getLast_split {P : List Hdr} {l : Nat}
    (h : (P.map (fun h => h.loc)).getLast? = some l) : ∃ P' k, P = P' ++ [k] ∧ k.loc = l := by
  rcases List.eq_nil_or_concat P with e | ⟨P', k, e⟩
  · subst e; simp at h
  · subst e
    refine ⟨P', k, by simp, ?_⟩
    simpa using h

theorem Red.toLock {st : Nat → Status} {me : Nat} {a b : List Hdr} (H : Red (Gone st me) a b) :
    Red soft a b := H.mono (fun _ g => Or.inl (Gone.lock g))

theorem gone_chl {st : Nat → Status} {me : Nat} (h : Hdr) (b : Bool)
    (g : Gone st me { h with chl := b }) : Gone st me h := g

theorem note_gone {E : Env} {w : Walk} (h : stale E.st E.me w.cur = true) :
    w.note E = (w, true) := by
  unfold stale at h
  simp only [Bool.and_eq_true, decide_eq_true_eq, Bool.not_eq_true'] at h
  unfold Walk.note
  simp [h.1.1, h.1.2, h.2]

/-- Adding a header to what has been seen. -/
theorem Seen.push {E : Env} {w w1 : Walk} {P : List Hdr} {h : Hdr} (S : Seen E w P)
    (hc : (w1.conf = w.conf ∧ (¬ Bad E h ∨ ∃ c, w.conf = some c ∧ c.oxid ≠ E.me)) ∨
      (w1.conf = some h ∧ (∀ c, w.conf = some c → c.oxid = E.me) ∧ (Bad E h ∨ h.oxid = E.me)))
    (hs : (h.oxid ≠ E.me ∧ w1.status = w.status) ∨
      (h.oxid = E.me ∧ w1.status = max w.status (if E.mode ≤ h.mode then 2 else 1)))
    (hr : w1.redundant = w.redundant ∨
      (w1.redundant = (w.redundant || decide (h.mode ≤ E.mode))))
    (hr' : h.oxid = E.me → h.lockOnly = true →
      w1.redundant = (w.redundant || decide (h.mode ≤ E.mode))) :
    Seen E w1 (P ++ [h]) where
  conf := by
    rcases hc with ⟨e, hb⟩ | ⟨e, ho, hb⟩
    · rw [e]
      rcases S.conf with ⟨h1, h2⟩ | ⟨c, h1, k, hk, hb', ho⟩
      · rcases hb with hb | ⟨c, e', hc⟩
        · refine Or.inl ⟨h1, ?_⟩
          intro k hk
          rcases List.mem_append.1 hk with hk | hk
          · exact h2 k hk
          · rw [List.mem_singleton.1 hk]; exact hb
        · exact absurd (h1 c e') hc
      · exact Or.inr ⟨c, h1, k, List.mem_append_left _ hk, hb', ho⟩
    · rcases S.conf with ⟨h1, h2⟩ | ⟨c, h1, k, hk, hb', ho'⟩
      · rcases hb with hb | hb
        · exact Or.inr ⟨h, e, h, by simp, hb, rfl⟩
        · refine Or.inl ⟨?_, ?_⟩
          · intro c hc
            rw [e] at hc
            cases hc
            exact hb
          · intro k hk
            rcases List.mem_append.1 hk with hk | hk
            · exact h2 k hk
            · rw [List.mem_singleton.1 hk]; exact fun b => b.1 hb
      · have := ho c h1
        rw [← ho'] at this
        exact absurd this hb'.1
  st2 := fun e => by
    rcases hs with ⟨_, es⟩ | ⟨ho, es⟩
    · rw [es] at e
      obtain ⟨k, hk, h1⟩ := S.st2 e
      exact ⟨k, List.mem_append_left _ hk, h1⟩
    · by_cases hm : E.mode ≤ h.mode
      · exact ⟨h, by simp, ho, hm⟩
      · rw [if_neg hm] at es
        have : w.status = 2 := by omega
        obtain ⟨k, hk, h1⟩ := S.st2 this
        exact ⟨k, List.mem_append_left _ hk, h1⟩
  st1 := fun e => by
    have hw : w.status ≠ 2 := by
      intro h2
      rcases hs with ⟨_, es⟩ | ⟨_, es⟩
      · omega
      · have : (if E.mode ≤ h.mode then 2 else 1) ≤ 2 := by split <;> omega
        omega
    obtain ⟨h1, h2⟩ := S.st1 hw
    rcases hs with ⟨hn, es⟩ | ⟨ho, es⟩
    · refine ⟨by omega, ?_⟩
      intro k hk hko
      rcases List.mem_append.1 hk with hk | hk
      · exact h2 k hk hko
      · rw [List.mem_singleton.1 hk] at hko; exact absurd hko hn
    · by_cases hm : E.mode ≤ h.mode
      · rw [if_pos hm] at es; omega
      · rw [if_neg hm] at es
        refine ⟨by omega, ?_⟩
        intro k hk hko
        rcases List.mem_append.1 hk with hk | hk
        · exact h2 k hk hko
        · rw [List.mem_singleton.1 hk]; exact Or.inl (by omega)
  red := fun e k hk hko hkl => by
    have hw : w.redundant = false := by
      rcases hr with h | h <;> rw [h] at e
      · exact e
      · simp at e; exact e.1
    rcases List.mem_append.1 hk with hk | hk
    · exact S.red hw k hk hko hkl
    · rw [List.mem_singleton.1 hk] at hko hkl ⊢
      rw [hr' hko hkl] at e
      simp at e; omega

theorem inProgress_iff {st : Nat → Status} {x : Nat} :
    inProgress st x = true ↔ st x = .running := by
  unfold inProgress; split <;> simp_all

theorem isFinished_iff {st : Nat → Status} {x : Nat} :
    isFinished st x = true ↔ ∃ c, st x = .committed c := by
  unfold isFinished; split <;> simp_all

/-- Noting a header that stays. -/
theorem note_keep {E : Env} {w : Walk} {P : List Hdr} (h : stale E.st E.me w.cur = false)
    (me : E.st E.me = .running) (ab : E.st w.cur.oxid ≠ .aborted) (S : Seen E w P) :
    (w.note E).2 = false ∧ Seen E (w.note E).1 (P ++ [w.cur]) ∧
    (w.note E).1.page = w.page ∧ (w.note E).1.recs = w.recs ∧ (w.note E).1.cur = w.cur ∧
    (w.note E).1.curLoc = w.curLoc ∧ (w.note E).1.last = w.last := by
  have ip := @inProgress_iff E.st w.cur.oxid
  by_cases hl : w.cur.lockOnly = true
  · by_cases ho : w.cur.oxid = E.me
    · -- own lock
      unfold Walk.note
      rw [if_pos hl, if_pos ho]
      refine ⟨rfl, ?_, rfl, rfl, rfl, rfl, rfl⟩
      exact S.push (Or.inl ⟨rfl, Or.inl (fun b => b.1 ho)⟩) (Or.inr ⟨ho, rfl⟩) (Or.inr rfl)
        (fun _ _ => rfl)
    · -- lock of another transaction in progress
      have hp : inProgress E.st w.cur.oxid = true := by
        unfold stale at h
        simp [hl, ho] at h
        exact h
      unfold Walk.note
      rw [if_pos hl, if_neg ho, hp]
      simp only [Bool.not_true, Bool.false_eq_true, if_false]
      split
      · next hc =>
        simp only [Bool.and_eq_true] at hc
        refine ⟨rfl, ?_, rfl, rfl, rfl, rfl, rfl⟩
        refine S.push (Or.inr ⟨rfl, ?_, Or.inl ⟨ho, ip.1 hp, hc.1⟩⟩) (Or.inl ⟨ho, rfl⟩)
          (Or.inl rfl) (fun e => absurd e ho)
        intro c e
        have := hc.2
        rw [e] at this
        simpa [openL] using this
      · next hc =>
        refine ⟨rfl, ?_, rfl, rfl, rfl, rfl, rfl⟩
        refine S.push (Or.inl ⟨rfl, ?_⟩) (Or.inl ⟨ho, rfl⟩) (Or.inl rfl) (fun e => absurd e ho)
        by_cases hcf : conflicts w.cur.mode E.mode = true
        · rw [hcf, Bool.true_and] at hc
          right
          cases e : w.conf with
          | none => rw [e] at hc; exact absurd rfl hc
          | some c => rw [e] at hc; exact ⟨c, rfl, by simpa [openL] using hc⟩
        · exact Or.inl (fun b => hcf b.2.2)
  · -- a change
    have hn : w.cur.lockOnly = false := by simpa using hl
    unfold Walk.note
    rw [if_neg hl]
    by_cases hf : xFinished E w.cur = true
    · -- ended
      rw [hf, if_neg (by simp)]
      have hnr : E.st w.cur.oxid ≠ .running := by
        intro e
        unfold xFinished at hf
        split at hf
        · obtain ⟨c, h'⟩ := isFinished_iff.1 hf
          rw [e] at h'; cases h'
        · rw [ip.2 e] at hf; cases hf
      have hno : w.cur.oxid ≠ E.me := fun e => hnr (e ▸ me)
      refine ⟨rfl, ?_, rfl, rfl, rfl, rfl, rfl⟩
      exact S.push (Or.inl ⟨rfl, Or.inl (fun b => hnr b.2.1)⟩) (Or.inl ⟨hno, rfl⟩) (Or.inl rfl)
        (fun e => absurd e hno)
    · have hf' : xFinished E w.cur = false := by simpa using hf
      rw [hf']
      simp only [Bool.not_false, if_true]
      by_cases ho : w.cur.oxid = E.me
      · rw [if_pos ho]
        split
        · next hc =>
          simp only [Bool.and_eq_true] at hc
          refine ⟨rfl, ?_, rfl, rfl, rfl, rfl, rfl⟩
          refine S.push (Or.inr ⟨rfl, ?_, Or.inr ho⟩) (Or.inr ⟨ho, rfl⟩) (Or.inl rfl)
            (fun _ e => by rw [hn] at e; cases e)
          intro c e
          have := hc.2
          rw [e] at this
          simp [openM, ho] at this
        · refine ⟨rfl, ?_, rfl, rfl, rfl, rfl, rfl⟩
          exact S.push (Or.inl ⟨rfl, Or.inl (fun b => b.1 ho)⟩) (Or.inr ⟨ho, rfl⟩) (Or.inl rfl)
            (fun _ e => by rw [hn] at e; cases e)
      · rw [if_neg ho]
        have hrun : conflicts w.cur.mode E.mode = true → E.st w.cur.oxid = .running := by
          intro hc
          unfold xFinished at hf'
          rw [if_pos hc] at hf'
          cases e : E.st w.cur.oxid with
          | running => rfl
          | committed c =>
            have := isFinished_iff.2 ⟨c, e⟩
            rw [this] at hf'; cases hf'
          | aborted => exact absurd e ab
        split
        · next hc =>
          simp only [Bool.and_eq_true] at hc
          refine ⟨rfl, ?_, rfl, rfl, rfl, rfl, rfl⟩
          refine S.push (Or.inr ⟨rfl, ?_, Or.inl ⟨ho, hrun hc.1, hc.1⟩⟩) (Or.inl ⟨ho, rfl⟩)
            (Or.inl rfl) (fun e => absurd e ho)
          intro c e
          have := hc.2
          rw [e] at this
          simp [openM] at this
          exact this.1
        · next hc =>
          refine ⟨rfl, ?_, rfl, rfl, rfl, rfl, rfl⟩
          refine S.push (Or.inl ⟨rfl, ?_⟩) (Or.inl ⟨ho, rfl⟩) (Or.inl rfl) (fun e => absurd e ho)
          by_cases hcf : conflicts w.cur.mode E.mode = true
          · rw [hcf, Bool.true_and] at hc
            right
            cases e : w.conf with
            | none => rw [e] at hc; exact absurd rfl hc
            | some c => rw [e] at hc; exact ⟨c, rfl, by simpa [openM, ho] using hc⟩
          · exact Or.inl (fun b => hcf b.2.2)

/-- Two changes exclude each other. -/
theorem change_conflict {g h : Hdr} (hg : 2 ≤ g.mode) (hh : 2 ≤ h.mode) :
    conflicts g.mode h.mode = true := by
  unfold conflicts; simp; omega

/-- The walk may stop: what it has not seen does not matter. -/
theorem Here.stop {fuel : Nat} {E : Env} {r0 : Recs} {L0 : List Hdr} {w : Walk} {P R : List Hdr}
    (H : Here fuel E r0 L0 w P R) (S : Sound E.st E.ipLow L0) (me : E.st E.me = .running)
    (hg : w.goes E = false) : Fin E r0 L0 w (P ++ w.cur :: R) := by
  have S' := S.red H.red.toLock
  unfold Walk.goes at hg
  simp only [Bool.or_eq_false_iff, Bool.not_eq_false'] at hg
  obtain ⟨⟨hc, hl⟩, hf⟩ := hg
  have plain : ∀ g ∈ R, g.lockOnly = false ∧ g.chl = false := (Flags.drop H.flags).1 hc
  have hcur : w.cur ∈ P ++ w.cur :: R := by simp
  have hcm := S'.change _ hcur hl
  -- a header ahead in progress has the owner of the current one
  have key : ∀ h ∈ w.cur :: R, E.st h.oxid = .running →
      h.lockOnly = false ∧ conflicts h.mode E.mode = false := by
    intro h hh hr
    have curcase : E.st w.cur.oxid = .running →
        conflicts w.cur.mode E.mode = false ∧ E.ipLow = true := by
      intro hr
      unfold xFinal at hf
      split at hf
      · obtain ⟨c, e⟩ := isFinished_iff.1 hf
        rw [e] at hr; cases hr
      · next hn =>
        refine ⟨by simpa using hn, ?_⟩
        unfold csnBelow at hf
        rw [hr] at hf
        exact hf
    rcases List.mem_cons.1 hh with e | hh
    · subst e; exact ⟨hl, (curcase hr).1⟩
    · have hm : h ∈ P ++ w.cur :: R := by simp [hh]
      have hlh := (plain h hh).1
      have hhm := S'.change h hm hlh
      have e1 := (List.pairwise_append.1 S'.excl).2.1
      rw [List.pairwise_cons] at e1
      have := e1.1 h hh hr
      rcases this with e | e
      · have hr' : E.st w.cur.oxid = .running := by rw [e]; exact hr
        obtain ⟨h1, h2⟩ := curcase hr'
        have m1 := (List.pairwise_append.1 (S'.mono h2)).2.1
        rw [List.pairwise_cons] at m1
        have := m1.1 h hh hr e hl hlh
        refine ⟨hlh, ?_⟩
        unfold conflicts at h1 ⊢
        simp at h1 ⊢; omega
      · rw [change_conflict hcm hhm] at e; cases e
  refine ⟨H.head, H.stored, H.flags, H.red, H.tup, ?_⟩
  refine ⟨?_, ?_, ?_, ?_⟩
  · rcases H.seen.conf with ⟨h1, h2⟩ | ⟨c, h1, k, hk, hb⟩
    · refine Or.inl ⟨h1, ?_⟩
      intro h hh hb
      rcases List.mem_append.1 hh with hh | hh
      · exact h2 h hh hb
      · have := (key h hh hb.2.1).2
        rw [hb.2.2] at this; cases this
    · exact Or.inr ⟨c, h1, k, List.mem_append_left _ hk, hb⟩
  · intro e
    obtain ⟨h, hh, h1⟩ := H.seen.st2 e
    exact ⟨h, List.mem_append_left _ hh, h1⟩
  · intro e
    refine ⟨(H.seen.st1 e).1, ?_⟩
    intro h hh ho
    rcases List.mem_append.1 hh with hh | hh
    · exact (H.seen.st1 e).2 h hh ho
    · exact Or.inr (key h hh (by rw [ho]; exact me))
  · intro e h hh ho hlk
    rcases List.mem_append.1 hh with hh | hh
    · exact H.seen.red e h hh ho hlk
    · have := (key h hh (by rw [ho]; exact me)).1
      rw [this] at hlk; cases hlk

/-- After removing a lock from the middle of the chain. -/
theorem Here.turn_gone {fuel : Nat} {E : Env} {r0 : Recs} {L0 : List Hdr} {w : Walk}
    {P R : List Hdr} (H : Here fuel E r0 L0 w P R) (S : Sound E.st E.ipLow L0)
    (hs : stale E.st E.me w.cur = true) :
    (w.turn fuel E).2 = true ∧ ∃ P' g R', R = g :: R' ∧ Here fuel E r0 L0 (w.turn fuel E).1 P' R' := by
  have S' := S.red H.red.toLock
  have hcur : w.cur ∈ P ++ w.cur :: R := by simp
  have hlock := Gone.lock hs
  have hloc := S'.lockLoc _ hcur hlock
  -- there is a header below
  have hst := Stored.drop H.stored
  obtain ⟨g, R', eR⟩ : ∃ g R', R = g :: R' := by
    cases R with
    | nil => exact absurd hst hloc
    | cons g R' => exact ⟨g, R', rfl⟩
  subst eR
  have hg : (w.recs w.cur.loc).hdr = g := hst.2.1
  have hdel := (Del.drop S'.del).1 (Or.inl hlock)
  -- where the current header is stored
  have hpos : (P.map (fun h => h.loc)).getLast? = some w.curLoc := by
    rcases H.pos with h | h
    · exact h
    · rw [hs] at h; cases h
  have hcl : w.curLoc ≠ 0 := by
    obtain ⟨P', k, e, ek⟩ := getLast_split hpos
    have h1 := H.stored
    rw [e] at h1
    have h2 : Stored w.recs (k :: w.cur :: g :: R') := Stored.drop (P := P') (by simpa using h1)
    rw [← ek]; exact h2.1
  have enew : (⟨g.oxid, g.mode, g.lockOnly, g.loc, g.chl, w.cur.deleted⟩ : Hdr) = g := by
    have : w.cur.deleted = g.deleted := by rw [hdel.1, hdel.2]
    rw [this]
  have hnp := H.nopair
  simp only [noPair, hs, Bool.true_and, Bool.and_eq_true, Bool.not_eq_true'] at hnp
  have hlast : LastOK w.last P := by
    rcases H.last with h | h
    · rw [hlock] at h; cases h.2
    · exact h
  unfold Walk.turn
  rw [note_gone hs]
  dsimp only
  rw [if_pos rfl, if_neg hloc]
  simp only [if_true, Bool.false_and, Bool.false_eq_true, if_false]
  refine ⟨trivial, ?_⟩
  unfold Walk.drop
  rw [if_neg hloc, hg, if_neg hcl]
  by_cases hc : w.cur.chl = false
  · -- nothing below has locks
    have hcond : (w.cur.lockOnly && !w.cur.chl) = true := by rw [hlock, hc]; rfl
    rw [if_pos hcond]
    dsimp only
    rw [enew]
    obtain ⟨t, hh⟩ := H.head
    obtain ⟨P1, P2, e, hP2, ⟨t', hh'⟩, hst', htup⟩ :=
      clean_spec (Q := w.cur :: g :: R') H.stored (by simp) hh H.len hlast
    have hfl2 : Flags (P1 ++ (P2 ++ w.cur :: g :: R')) := by
      have := H.flags
      rw [e] at this
      simpa using this
    have eclr : clr (P2 ++ w.cur :: g :: R') = P2.map unchl ++ w.cur :: g :: R' :=
      clr_flagged (Flags.above (Flags.drop hfl2) (Or.inl hlock)) hc
    rw [eclr] at hh' hst'
    have plain : ∀ x ∈ g :: R', x.lockOnly = false ∧ x.chl = false :=
      (Flags.drop (P := P) H.flags).1 hc
    have same : Same P (P1 ++ P2.map unchl) := by
      rw [e]; exact Red.append (.refl _) (.map _)
    have hpos' : ((P1 ++ P2.map unchl).map (fun h => h.loc)).getLast? = some w.curLoc := by
      rw [same.locs]; exact hpos
    obtain ⟨P', k, eP, ek⟩ := getLast_split hpos'
    refine ⟨P1 ++ P2.map unchl, g, R', rfl, ?_⟩
    have hst2 : Stored (cleanFlag fuel w.page w.recs w.last).2 (P' ++ k :: w.cur :: g :: R') := by
      have : P1 ++ (P2.map unchl ++ w.cur :: g :: R') = P' ++ k :: w.cur :: g :: R' := by
        rw [← List.append_assoc, eP]; simp
      rw [← this]; exact hst'
    have hst3 := Stored.unlink (g' := g) hst2 rfl
    rw [ek] at hst3
    have eL : P' ++ k :: g :: R' = (P1 ++ P2.map unchl) ++ g :: R' := by rw [eP]; simp
    refine ⟨?_, ?_, ?_, ?_, ?_, ?_, ?_, ?_, ?_, ?_⟩
    · dsimp only
      rw [← eL]
      have : P' ++ k :: w.cur :: g :: R' = (cleanFlag fuel w.page w.recs w.last).1 :: t' := by
        rw [← hh', ← List.append_assoc, eP]; simp
      cases P' with
      | nil =>
        simp at this
        exact ⟨g :: R', by rw [← this.1]; rfl⟩
      | cons p P' =>
        simp at this
        exact ⟨P' ++ k :: g :: R', by rw [← this.1]; rfl⟩
    · dsimp only
      rw [← eL]; exact hst3
    · dsimp only
      have : (P1 ++ P2.map unchl) ++ g :: R' = P1 ++ (P2.map unchl ++ g :: R') := by simp
      rw [this]
      have pl : ∀ x ∈ P2.map unchl ++ g :: R', x.lockOnly = false ∧ x.chl = false := by
        intro x hx
        rcases List.mem_append.1 hx with hx | hx
        · obtain ⟨y, hy, ey⟩ := List.mem_map.1 hx
          subst ey
          exact ⟨hP2 y hy, rfl⟩
        · exact plain x hx
      exact Flags.weaken hfl2 (Flags.plain pl) (fun _ => pl)
    · dsimp only
      refine Red.trans (fun h b => gone_chl h b) H.red ?_
      exact Red.append (same.mono (fun _ f => f.elim)) (.skip hs (.refl _))
    · intro l
      dsimp only
      rw [setHdr_tup, htup, H.tup]
    · exact (H.seen.same same).of rfl rfl rfl
    · dsimp only
      have := H.len
      rw [List.length_append, same.length, List.length_cons]
      simp at this; omega
    · right
      exact hnp.1
    · exact hnp.2
    · left
      exact ⟨(plain g (by simp)).2, (plain g (by simp)).1⟩
  · have hcond : ¬ ((w.cur.lockOnly && !w.cur.chl) = true) := by simp [hc]
    rw [if_neg hcond]
    dsimp only
    rw [enew]
    obtain ⟨P', k, eP, ek⟩ := getLast_split hpos
    refine ⟨P, g, R', rfl, ?_⟩
    have hst2 : Stored w.recs (P' ++ k :: w.cur :: g :: R') := by
      have := H.stored
      rw [eP] at this
      simpa using this
    have hst3 := Stored.unlink (g' := g) hst2 rfl
    rw [ek] at hst3
    have eL : P' ++ k :: g :: R' = P ++ g :: R' := by rw [eP]; simp
    refine ⟨?_, ?_, ?_, ?_, ?_, ?_, ?_, ?_, ?_, ?_⟩
    · dsimp only
      rw [← eL]
      obtain ⟨t, hh⟩ := H.head
      rw [eP] at hh
      cases P' with
      | nil =>
        simp at hh
        exact ⟨g :: R', by rw [← hh.1]; rfl⟩
      | cons p P' =>
        simp at hh
        exact ⟨P' ++ k :: g :: R', by rw [← hh.1]; rfl⟩
    · dsimp only
      rw [← eL]; exact hst3
    · dsimp only
      refine Flags.weaken H.flags (Flags.drop (P := P) H.flags).2 ?_
      intro h x hx
      exact h x (List.mem_cons_of_mem _ hx)
    · dsimp only
      refine Red.trans (fun h b => gone_chl h b) H.red ?_
      exact Red.append (.refl _) (.skip hs (.refl _))
    · intro l
      dsimp only
      rw [setHdr_tup, H.tup]
    · exact H.seen.of rfl rfl rfl
    · dsimp only
      have := H.len
      simp at this ⊢; omega
    · right
      exact hnp.1
    · exact hnp.2
    · right
      exact hlast

/-- The last header of the chain. -/
theorem Here.turn_end {fuel : Nat} {E : Env} {r0 : Recs} {L0 : List Hdr} {w : Walk}
    {P : List Hdr} (H : Here fuel E r0 L0 w P []) (S : Sound E.st E.ipLow L0)
    (me : E.st E.me = .running) :
    (w.turn fuel E).2 = false ∧ ∃ L, Fin E r0 L0 (w.turn fuel E).1 L := by
  have S' := S.red H.red.toLock
  have hcur : w.cur ∈ P ++ [w.cur] := by simp
  have hloc : w.cur.loc = 0 := Stored.drop H.stored
  have hlock : w.cur.lockOnly = false := by
    cases h : w.cur.lockOnly with
    | false => rfl
    | true => exact absurd hloc (S'.lockLoc _ hcur h)
  have hs : stale E.st E.me w.cur = false := by simp [stale, hlock]
  obtain ⟨n1, n2, n3, n4, n5, n6, n7⟩ := note_keep hs me (S'.noAb _ hcur) H.seen
  unfold Walk.turn
  generalize hnw : w.note E = nw at *
  obtain ⟨w1, d⟩ := nw
  dsimp only at *
  subst n1
  simp only [Bool.false_eq_true, if_false]
  rw [if_pos hloc, n5]
  by_cases hc : w.cur.chl = true
  · rw [if_pos hc]
    refine ⟨rfl, ?_⟩
    have hlast : LastOK w.last P := by
      rcases H.last with h | h
      · rw [hc] at h; cases h.1
      · exact h
    obtain ⟨t, hh⟩ := H.head
    obtain ⟨P1, P2, e, hP2, ⟨t', hh'⟩, hst', htup⟩ :=
      clean_spec (Q := [w.cur]) H.stored (by simp) hh H.len hlast
    have hfl2 : Flags (P1 ++ (P2 ++ [w.cur])) := by
      have := H.flags
      rw [e] at this
      simpa using this
    have lf : ∀ h ∈ P2 ++ [w.cur], h.lockOnly = false := by
      intro h hh
      rcases List.mem_append.1 hh with hh | hh
      · exact hP2 h hh
      · rw [List.mem_singleton.1 hh]; exact hlock
    have pl := clr_all (Flags.drop hfl2) lf
    have same : Same (P ++ [w.cur]) (P1 ++ clr (P2 ++ [w.cur])) := by
      rw [e, List.append_assoc]; exact Red.append (.refl _) (.clr _)
    refine ⟨P1 ++ clr (P2 ++ [w.cur]), ?_, ?_, ?_, ?_, ?_, ?_⟩
    · dsimp only
      rw [n3, n4, n7]; exact ⟨t', hh'⟩
    · dsimp only
      rw [n3, n4, n7]; exact hst'
    · exact Flags.weaken hfl2 (Flags.plain pl) (fun _ => pl)
    · exact Red.trans (fun h b => gone_chl h b) H.red (same.mono (fun _ f => f.elim))
    · intro l
      dsimp only
      rw [n3, n4, n7, htup, H.tup]
    · exact (n2.same same).of rfl rfl rfl
  · rw [if_neg hc]
    refine ⟨rfl, P ++ [w.cur], ?_, ?_, H.flags, H.red, ?_, n2⟩
    · rw [n3]; exact H.head
    · rw [n4]; exact H.stored
    · rw [n4]; exact H.tup

/-- A header that stays, with another one below. -/
theorem Here.turn_keep {fuel : Nat} {E : Env} {r0 : Recs} {L0 : List Hdr} {w : Walk}
    {P R : List Hdr} {g : Hdr} (H : Here fuel E r0 L0 w P (g :: R)) (S : Sound E.st E.ipLow L0)
    (me : E.st E.me = .running) (hs : stale E.st E.me w.cur = false) :
    (w.turn fuel E).2 = true ∧ ∃ P', Here fuel E r0 L0 (w.turn fuel E).1 P' R := by
  have S' := S.red H.red.toLock
  have hcur : w.cur ∈ P ++ w.cur :: g :: R := by simp
  have hst := Stored.drop H.stored
  have hloc : w.cur.loc ≠ 0 := hst.1
  have hg : (w.recs w.cur.loc).hdr = g := hst.2.1
  obtain ⟨n1, n2, n3, n4, n5, n6, n7⟩ := note_keep hs me (S'.noAb _ hcur) H.seen
  have hnp : noPair E.st E.me (g :: R) = true := by
    have := H.nopair
    simp only [noPair, Bool.and_eq_true] at this
    exact this.2
  unfold Walk.turn
  generalize hnw : w.note E = nw at *
  obtain ⟨w1, d⟩ := nw
  dsimp only at *
  subst n1
  simp only [Bool.false_eq_true, if_false]
  rw [if_neg hloc, n5, n4, hg, n7]
  have eL : P ++ w.cur :: g :: R = (P ++ [w.cur]) ++ g :: R := by simp
  by_cases hc : w.cur.chl = true
  · have hlast0 : LastOK w.last P := by
      rcases H.last with h | h
      · rw [hc] at h; cases h.1
      · exact h
    have hlast : LastOK (if w.cur.lockOnly = true then w.cur.loc else w.last) (P ++ [w.cur]) := by
      split
      · exact Or.inr ⟨P, w.cur, [], rfl, rfl, by simp⟩
      · next hn =>
        have hn' : w.cur.lockOnly = false := by simpa using hn
        rcases hlast0 with ⟨h0, hP⟩ | ⟨P1, k, P2, e, ek, hP⟩
        · refine Or.inl ⟨h0, ?_⟩
          intro h hh
          rcases List.mem_append.1 hh with hh | hh
          · exact hP h hh
          · rw [List.mem_singleton.1 hh]; exact hn'
        · refine Or.inr ⟨P1, k, P2 ++ [w.cur], by simp [e], ek, ?_⟩
          intro h hh
          rcases List.mem_append.1 hh with hh | hh
          · exact hP h hh
          · rw [List.mem_singleton.1 hh]; exact hn'
    by_cases hp : g.chl = false ∧ g.lockOnly = false
    · -- the flags behind are cleaned
      have hcond : (w.cur.chl && !g.chl && !g.lockOnly) = true := by
        rw [hc, hp.1, hp.2]; rfl
      rw [if_pos hcond]
      refine ⟨rfl, ?_⟩
      obtain ⟨t, hh⟩ := H.head
      rw [eL] at hh
      obtain ⟨P1, P2, e, hP2, ⟨t', hh'⟩, hst', htup⟩ :=
        clean_spec (P := P ++ [w.cur]) (Q := g :: R) (by rw [← eL]; exact H.stored) (by simp) hh
          (by rw [← eL]; exact H.len) hlast
      have hfl2 : Flags (P1 ++ (P2 ++ g :: R)) := by
        have := H.flags
        rw [eL, e] at this
        simpa using this
      have allT : ∀ h ∈ P ++ [w.cur], h.chl = true := by
        intro h hh
        rcases List.mem_append.1 hh with hh | hh
        · exact Flags.above H.flags (Or.inr hc) h hh
        · rw [List.mem_singleton.1 hh]; exact hc
      have eclr : clr (P2 ++ g :: R) = P2.map unchl ++ g :: R := by
        refine clr_flagged ?_ hp.1
        intro h hh
        exact allT h (by rw [e]; exact List.mem_append_right _ hh)
      rw [eclr] at hh' hst'
      have plain : ∀ x ∈ R, x.lockOnly = false ∧ x.chl = false :=
        (Flags.drop (P := P2) (Flags.drop hfl2)).1 hp.1
      have pl : ∀ x ∈ P2.map unchl ++ g :: R, x.lockOnly = false ∧ x.chl = false := by
        intro x hx
        rcases List.mem_append.1 hx with hx | hx
        · obtain ⟨y, hy, ey⟩ := List.mem_map.1 hx
          subst ey
          exact ⟨hP2 y hy, rfl⟩
        · rcases List.mem_cons.1 hx with ex | hx
          · subst ex; exact ⟨hp.2, hp.1⟩
          · exact plain x hx
      have same : Same (P ++ [w.cur]) (P1 ++ P2.map unchl) := by
        rw [e]; exact Red.append (.refl _) (.map _)
      have eA : (P1 ++ P2.map unchl) ++ g :: R = P1 ++ (P2.map unchl ++ g :: R) := by simp
      refine ⟨P1 ++ P2.map unchl, ?_, ?_, ?_, ?_, ?_, ?_, ?_, ?_, ?_, ?_⟩
      · dsimp only
        rw [eA, n3]; exact ⟨t', hh'⟩
      · dsimp only
        rw [eA, n3]; exact hst'
      · dsimp only
        rw [eA]; exact Flags.weaken hfl2 (Flags.plain pl) (fun _ => pl)
      · dsimp only
        refine Red.trans (fun h b => gone_chl h b) H.red ?_
        rw [eL]
        exact Red.append (same.mono (fun _ f => f.elim)) (.refl _)
      · intro l
        dsimp only
        rw [n3, htup, H.tup]
      · exact (n2.same same).of rfl rfl rfl
      · dsimp only
        have := H.len
        rw [List.length_append, same.length]
        simp at this ⊢; omega
      · left
        dsimp only
        rw [same.locs]; simp
      · exact hnp
      · left
        exact hp
    · have hcond : ¬ ((w.cur.chl && !g.chl && !g.lockOnly) = true) := by
        rw [hc]
        simp only [Bool.true_and, Bool.and_eq_true, Bool.not_eq_true']
        exact hp
      rw [if_neg hcond]
      refine ⟨rfl, P ++ [w.cur], ?_, ?_, ?_, ?_, ?_, ?_, ?_, ?_, ?_, ?_⟩
      · dsimp only
        rw [← eL, n3]; exact H.head
      · dsimp only
        rw [← eL]; exact H.stored
      · dsimp only
        rw [← eL]; exact H.flags
      · dsimp only
        rw [← eL]; exact H.red
      · dsimp only
        exact H.tup
      · exact n2.of rfl rfl rfl
      · dsimp only
        rw [← eL]; exact H.len
      · left; simp
      · exact hnp
      · right
        exact hlast
  · have hc' : w.cur.chl = false := by simpa using hc
    have plain : ∀ x ∈ g :: R, x.lockOnly = false ∧ x.chl = false :=
      (Flags.drop (P := P) H.flags).1 hc'
    have hcond : ¬ ((w.cur.chl && !g.chl && !g.lockOnly) = true) := by rw [hc']; simp
    rw [if_neg hcond]
    refine ⟨rfl, P ++ [w.cur], ?_, ?_, ?_, ?_, ?_, ?_, ?_, ?_, ?_, ?_⟩
    · dsimp only
      rw [← eL, n3]; exact H.head
    · dsimp only
      rw [← eL]; exact H.stored
    · dsimp only
      rw [← eL]; exact H.flags
    · dsimp only
      rw [← eL]; exact H.red
    · dsimp only
      exact H.tup
    · exact n2.of rfl rfl rfl
    · dsimp only
      rw [← eL]; exact H.len
    · left; simp
    · exact hnp
    · left
      exact ⟨(plain g (by simp)).2, (plain g (by simp)).1⟩

/-- The loop. -/
theorem Here.loop {fuel : Nat} {E : Env} {r0 : Recs} {L0 : List Hdr}
    (S : Sound E.st E.ipLow L0) (me : E.st E.me = .running) :
    ∀ (n : Nat) (w : Walk) (P R : List Hdr), Here fuel E r0 L0 w P R → R.length < n →
      ∃ L, Fin E r0 L0 (Walk.loop fuel E n w) L
  | 0, _, _, _, _, hn => by omega
  | n + 1, w, P, R, H, hn => by
    unfold Walk.loop
    by_cases hg : w.goes E = true
    · rw [if_pos hg]
      by_cases hs : stale E.st E.me w.cur = true
      · obtain ⟨h1, P', g, R', e, H'⟩ := H.turn_gone S hs
        generalize w.turn fuel E = tw at *
        obtain ⟨w1, m⟩ := tw
        dsimp only at *
        subst h1 e
        simp only [if_true]
        exact Here.loop S me n w1 P' R' H' (by simp at hn; omega)
      · have hs' : stale E.st E.me w.cur = false := by simpa using hs
        cases R with
        | nil =>
          obtain ⟨h1, L, F⟩ := H.turn_end S me
          generalize w.turn fuel E = tw at *
          obtain ⟨w1, m⟩ := tw
          dsimp only at *
          subst h1
          simp only [Bool.false_eq_true, if_false]
          exact ⟨L, F⟩
        | cons g R' =>
          obtain ⟨h1, P', H'⟩ := H.turn_keep S me hs'
          generalize w.turn fuel E = tw at *
          obtain ⟨w1, m⟩ := tw
          dsimp only at *
          subst h1
          simp only [if_true]
          exact Here.loop S me n w1 P' R' H' (by simp at hn; omega)
    · rw [if_neg hg]
      exact ⟨_, H.stop S me (by simpa using hg)⟩

/-- **`row_lock_conflicts`** on a chain without two adjacent locks of ended
transactions: it removes locks of ended transactions, keeps the flags true, and
finds out whether another transaction in progress holds a conflicting lock. -/
theorem rowLockConflicts_spec {fuel : Nat} {E : Env} {r : Recs} {page : Hdr} {t : List Hdr}
    (S : Sound E.st E.ipLow (page :: t)) (me : E.st E.me = .running)
    (H : Stored r (page :: t)) (F : Flags (page :: t))
    (np : noPair E.st E.me (page :: t) = true) (hf : t.length + 2 < fuel) :
    ∃ L, Fin E r (page :: t) (rowLockConflicts fuel E page r) L := by
  have seen0 : ∀ w : Walk, w.conf = none → w.status = 0 → Seen E w [] := by
    intro w h1 h2
    refine ⟨Or.inl ⟨by rw [h1]; simp, by simp⟩, by rw [h2]; simp, by rw [h2]; simp, by simp⟩
  unfold rowLockConflicts
  by_cases hs : stale E.st E.me page = true
  · -- the header on the page is removed; that takes two turns
    have hlock := Gone.lock hs
    have hloc := S.lockLoc page (by simp) hlock
    obtain ⟨g, R, eR⟩ : ∃ g R, t = g :: R := by
      cases t with
      | nil => exact absurd H hloc
      | cons g R => exact ⟨g, R, rfl⟩
    subst eR
    have hg : (r page.loc).hdr = g := H.2.1
    have hdel := S.del.1 (Or.inl hlock)
    have enew : (⟨g.oxid, g.mode, g.lockOnly, g.loc, g.chl, page.deleted⟩ : Hdr) = g := by
      have : page.deleted = g.deleted := by rw [hdel.1, hdel.2]
      rw [this]
    obtain ⟨n, en⟩ : ∃ n, fuel = n + 2 := ⟨fuel - 2, by simp at hf; omega⟩
    simp only [noPair, hs, Bool.true_and, Bool.and_eq_true, Bool.not_eq_true'] at np
    have t1 : Walk.turn fuel E (⟨page, r, page, 0, 0, none, false, 0⟩ : Walk) =
        ((⟨g, r, page, page.loc, 0, none, false, 0⟩ : Walk), true) := by
      unfold Walk.turn
      rw [note_gone (by exact hs)]
      dsimp only
      rw [if_pos rfl, if_neg hloc]
      simp only [if_true, Bool.false_and, Bool.false_eq_true, if_false]
      unfold Walk.drop
      dsimp only
      rw [if_neg hloc, hg, if_pos rfl, enew]
    have t2 : ∃ r', Walk.turn fuel E (⟨g, r, page, page.loc, 0, none, false, 0⟩ : Walk) =
        ((⟨g, r', g, page.loc, 0, none, false, 0⟩ : Walk), true) ∧
        (∀ l, (r' l).tup = (r l).tup) ∧ Stored r' (g :: R) := by
      refine ⟨setHdr r page.loc g, ?_, setHdr_tup _ _ _, ?_⟩
      · unfold Walk.turn
        rw [note_gone (by exact hs)]
        dsimp only
        rw [if_pos rfl, if_neg hloc]
        simp only [if_true, Bool.false_and, Bool.false_eq_true, if_false]
        unfold Walk.drop
        dsimp only
        rw [if_neg hloc, hg, if_neg hloc]
        by_cases hc : page.chl = false
        · have hcond : (page.lockOnly && !page.chl) = true := by rw [hlock, hc]; rfl
          rw [if_pos hcond]
          have gp := F.1 hc g (by simp)
          have : cleanFlag fuel g r 0 = (g, r) := by
            unfold cleanFlag
            rw [if_pos rfl, if_pos gp.2]
          rw [this]
          dsimp only
          rw [enew]
        · have hcond : ¬ ((page.lockOnly && !page.chl) = true) := by simp [hc]
          rw [if_neg hcond]
          dsimp only
          rw [enew]
      · refine Stored.frame H.2.2.2 ?_
        intro h hh
        have := Stored.below H h hh
        rw [setHdr_other]; omega
    obtain ⟨r', t2, htup, hst'⟩ := t2
    have ego1 : Walk.goes E (⟨page, r, page, 0, 0, none, false, 0⟩ : Walk) = true := by
      unfold Walk.goes; simp [hlock]
    have ego2 : Walk.goes E (⟨g, r, page, page.loc, 0, none, false, 0⟩ : Walk) = true := by
      unfold Walk.goes; simp [hlock]
    have eloop : ∀ m, Walk.loop fuel E (m + 2) (⟨page, r, page, 0, 0, none, false, 0⟩ : Walk) =
        Walk.loop fuel E m (⟨g, r', g, page.loc, 0, none, false, 0⟩ : Walk) := by
      intro m
      conv => lhs; unfold Walk.loop
      rw [if_pos ego1, t1]
      dsimp only
      rw [if_pos rfl]
      conv => lhs; unfold Walk.loop
      rw [if_pos ego2, t2]
      dsimp only
      rw [if_pos rfl]
    have eloop := eloop n
    rw [← en] at eloop
    show ∃ L, Fin E r (page :: g :: R)
      (Walk.loop fuel E fuel (⟨page, r, page, 0, 0, none, false, 0⟩ : Walk)) L
    rw [eloop]
    refine Here.loop S me n _ [] R ?_ (by simp at hf; omega)
    refine ⟨⟨R, rfl⟩, hst', F.2, .skip hs (.refl _), htup, seen0 _ rfl rfl, ?_, Or.inr np.1, np.2,
      Or.inr (Or.inl ⟨rfl, by simp⟩)⟩
    simp at hf ⊢; omega
  · have hs' : stale E.st E.me page = false := by simpa using hs
    refine Here.loop S me fuel _ [] t ?_ (by omega)
    refine ⟨⟨t, rfl⟩, H, F, .refl _, fun _ => rfl, seen0 _ rfl rfl, ?_, Or.inr hs', np,
      Or.inr (Or.inl ⟨rfl, by simp⟩)⟩
    simp; omega

end Verif.RowLocks
