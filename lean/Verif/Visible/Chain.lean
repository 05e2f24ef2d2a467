/-
Version chains: what `findVersion` finds, and how chains with locks change.
-/
import Verif.Visible.Spec

namespace Verif.Visible

/-- The first version in a list of versions at which the reader stops. -/
def firstSeen (st : Nat → Status) (sn : Snap) : List Ver → Option Nat
  | [] => none
  | e :: t => if stopsAt st sn e then (if e.del then none else some e.val) else firstSeen st sn t

/-- The versions of a chain, without locks. -/
def plain (c : Chain) : Chain := c.filter (fun e => !e.lock)

/-- A lock and the version it lies on: the version is not a deletion, and whoever sees
the lock's transaction sees the version. -/
def Good (st : Nat → Status) (z w : Ver) : Prop :=
  w.del = false ∧ ((w.oxid = z.oxid ∧ w.loc < z.loc) ∨
    ∃ cw, st w.oxid = .committed cw ∧ ∀ cz, st z.oxid = .committed cz → cw ≤ cz)

/-- All locks of a chain lie well. -/
def LockOK (st : Nat → Status) : Chain → Prop
  | [] => True
  | z :: t => (z.lock = true → z.del = false ∧ ∀ w, (plain t).head? = some w → Good st z w) ∧ LockOK st t

/-- The chain below its newest version. -/
def underTop (c : Chain) : Chain := (skipLocks c).tail

theorem plain_skip : ∀ (c : Chain), plain (skipLocks c) = plain c
  | [] => rfl
  | e :: t => by
    cases h : e.lock with
    | true => simp [skipLocks, h, plain]; simpa [plain] using plain_skip t
    | false => simp [skipLocks, h]

theorem skip_cons {c : Chain} {e : Ver} {t : Chain} : skipLocks c = e :: t → e.lock = false := by
  induction c with
  | nil => simp [skipLocks]
  | cons a c ih =>
    cases h : a.lock with
    | true => simpa [skipLocks, h] using ih
    | false =>
      simp only [skipLocks, h, Bool.false_eq_true, if_false, List.cons.injEq]
      rintro ⟨rfl, _⟩; exact h

theorem plain_head_skip (c : Chain) : (plain c).head? = (skipLocks c).head? := by
  induction c with
  | nil => rfl
  | cons a c ih =>
    cases h : a.lock with
    | true => simpa [skipLocks, plain, h] using ih
    | false => simp [skipLocks, plain, h]

theorem tupleOf_plain : ∀ (c : Chain), tupleOf c = ((plain c).head?).map (fun e => e.val)
  | [] => rfl
  | e :: t => by
    cases h : e.lock with
    | true => simpa [tupleOf, plain, h] using tupleOf_plain t
    | false => simp [tupleOf, plain, h]

theorem Good.seen {st : Nat → Status} {sn : Snap} {z w : Ver} (g : Good st z w)
    (h : commBefore st sn.csn z.oxid = true) : commBefore st sn.csn w.oxid = true := by
  obtain ⟨_, ⟨e, _⟩ | ⟨cw, e, f⟩⟩ := g
  · rw [e]; exact h
  · unfold commBefore at h ⊢
    rw [e]
    cases hz : st z.oxid with
    | committed cz =>
      rw [hz] at h
      have := f cz hz
      simp at h ⊢; omega
    | running => simp [hz] at h
    | aborted => simp [hz] at h

theorem walk_plain {st : Nat → Status} {sn : Snap} : ∀ {c : Chain}, LockOK st c →
    walk st sn c = firstSeen st sn (plain c)
  | [], _ => rfl
  | e :: t, ⟨h1, h2⟩ => by
    have ih := walk_plain (sn := sn) h2
    cases h : e.lock with
    | false =>
      have : plain (e :: t) = e :: plain t := by simp [plain, h]
      rw [this]
      simp only [walk, firstSeen, tupleOf, h, Bool.false_eq_true, if_false, ih]
    | true =>
      have hp : plain (e :: t) = plain t := by simp [plain, h]
      obtain ⟨hd, hw⟩ := h1 h
      rw [hp]
      simp only [walk]
      by_cases hs : stopsAt st sn e = true
      · rw [if_pos hs, hd, tupleOf_plain, hp]
        have hc : commBefore st sn.csn e.oxid = true := by
          simpa [stopsAt, h] using hs
        cases hq : plain t with
        | nil => simp [firstSeen]
        | cons w r =>
          have g := hw w (by simp [hq])
          have : stopsAt st sn w = true := by simp [stopsAt, g.seen hc]
          simp [firstSeen, this, g.1]
      · rw [if_neg hs, ih]

/-- With locks lying well, `findVersion` gives the first version the reader sees. -/
theorem findVersion_plain {st : Nat → Status} {sn : Snap} {c : Chain}
    (h : LockOK st (underTop c)) : findVersion st sn c = firstSeen st sn (plain c) := by
  unfold findVersion
  rw [← plain_skip c]
  unfold underTop at h
  cases hs : skipLocks c with
  | nil => rfl
  | cons e t =>
    rw [hs] at h
    have hl := skip_cons hs
    have : plain (e :: t) = e :: plain t := by simp [plain, hl]
    rw [this]
    simp only [walk, firstSeen, tupleOf, hl, Bool.false_eq_true, if_false]
    rw [walk_plain (by simpa using h)]

theorem firstSeen_append {st : Nat → Status} {sn : Snap} : ∀ {a b : List Ver},
    (∀ e ∈ a, stopsAt st sn e = false) → firstSeen st sn (a ++ b) = firstSeen st sn b
  | [], _, _ => rfl
  | e :: a, b, h => by
    simp only [List.cons_append, firstSeen]
    rw [h e (by simp)]
    simpa using firstSeen_append (fun f hf => h f (by simp [hf]))

theorem firstSeen_filter {st : Nat → Status} {sn : Snap} {p : Ver → Bool} : ∀ {a : List Ver},
    (∀ e ∈ a, p e = false → stopsAt st sn e = false) →
    firstSeen st sn (a.filter p) = firstSeen st sn a
  | [], _ => rfl
  | e :: a, h => by
    have ih := firstSeen_filter (p := p) (a := a) (fun f hf => h f (by simp [hf]))
    cases hp : p e with
    | true => simp [List.filter_cons, hp, firstSeen, ih]
    | false => simp [List.filter_cons, hp, firstSeen, ih, h e (by simp) hp]

/-- Appending versions below which the first is a deletion the reader sees, or nothing. -/
theorem firstSeen_old {st : Nat → Status} {sn : Snap} {a b : List Ver}
    (h : b = [] ∨ ∃ e r, b = e :: r ∧ e.del = true ∧ stopsAt st sn e = true) :
    firstSeen st sn (a ++ b) = firstSeen st sn a := by
  induction a with
  | nil =>
    rcases h with rfl | ⟨e, r, rfl, hd, hs⟩
    · rfl
    · simp [firstSeen, hd, hs]
  | cons e a ih => simp only [List.cons_append, firstSeen, ih]

/-- How the states of transactions may change: running ones end, with commit numbers
not below `n`. -/
def Adv (n : Nat) (st st' : Nat → Status) : Prop :=
  ∀ y, (st y ≠ .running → st' y = st y) ∧ (∀ q, st y = .running → st' y = .committed q → n ≤ q)

theorem Adv.refl (n : Nat) (st : Nat → Status) : Adv n st st :=
  fun y => ⟨fun _ => Eq.refl _, fun q h h' => by rw [h] at h'; cases h'⟩

theorem Adv.set {n : Nat} {st : Nat → Status} {x : Nat} {v : Status} (h : st x = .running)
    (hv : ∀ q, v = .committed q → n ≤ q) : Adv n st (setSt st x v) := by
  intro y
  unfold setSt
  by_cases e : y = x
  · subst e; simp only [if_true]
    exact ⟨fun g => absurd h g, fun q _ e => hv q e⟩
  · rw [if_neg e]
    exact ⟨fun _ => Eq.refl _, fun q h1 h2 => by rw [h1] at h2; cases h2⟩

theorem Adv.comm {n c y : Nat} {st st' : Nat → Status} (A : Adv n st st')
    (h : commBefore st c y = true) : commBefore st' c y = true := by
  unfold commBefore at h ⊢
  have hr : st y ≠ .running := by intro e; rw [e] at h; simp at h
  rw [(A y).1 hr]; exact h

theorem Adv.notComm {n c y : Nat} {st st' : Nat → Status} (A : Adv n st st') (hc : c ≤ n)
    (h : commBefore st c y = false) : commBefore st' c y = false := by
  unfold commBefore at h ⊢
  by_cases hr : st y = .running
  · cases e : st' y with
    | committed q => have := (A y).2 q hr e; simp; omega
    | running => rfl
    | aborted => rfl
  · rw [(A y).1 hr]; exact h

theorem Good.adv {n : Nat} {st st' : Nat → Status} {z w : Ver} (A : Adv n st st')
    (hn : ∀ y q, st y = .committed q → q < n) (g : Good st z w) : Good st' z w := by
  refine ⟨g.1, ?_⟩
  rcases g.2 with h | ⟨cw, e, f⟩
  · exact Or.inl h
  · refine Or.inr ⟨cw, ?_, ?_⟩
    · rw [(A _).1 (by rw [e]; simp)]; exact e
    · intro cz hz
      by_cases hr : st z.oxid = .running
      · have := (A _).2 cz hr hz
        have := hn _ _ e; omega
      · rw [(A _).1 hr] at hz; exact f cz hz

theorem LockOK.adv {n : Nat} {st st' : Nat → Status} (A : Adv n st st')
    (hn : ∀ y q, st y = .committed q → q < n) : ∀ {c : Chain}, LockOK st c → LockOK st' c
  | [], _ => trivial
  | _ :: _, ⟨h1, h2⟩ =>
    ⟨fun hz => ⟨(h1 hz).1, fun w hw => ((h1 hz).2 w hw).adv A hn⟩, h2.adv A hn⟩

theorem LockOK.tail {st : Nat → Status} {c : Chain} (h : LockOK st c) : LockOK st c.tail := by
  cases c with
  | nil => exact h
  | cons _ _ => exact h.2

theorem LockOK.skip {st : Nat → Status} : ∀ {c : Chain}, LockOK st c → LockOK st (skipLocks c)
  | [], h => h
  | e :: t, h => by
    cases hl : e.lock with
    | true => simpa [skipLocks, hl] using LockOK.skip h.2
    | false => simpa [skipLocks, hl] using h

/-- Locks on top of a chain: every version of a running transaction other than the
locker's, down to one finished or the locker's own, is not a deletion. -/
def Lk (st : Nat → Status) (z : Ver) : Chain → Prop
  | [] => True
  | e :: t =>
    if e.lock then Lk st z t
    else e.del = false ∧ ((e.oxid = z.oxid ∧ e.loc < z.loc) ∨ finished st e.oxid = true ∨ Lk st z t)

/-- The condition `Lk` for every lock above the newest version. -/
def TopLocks (st : Nat → Status) : Chain → Prop
  | [] => True
  | z :: t => z.lock = true → z.del = false ∧ Lk st z t ∧ TopLocks st t

theorem Lk.adv {n : Nat} {st st' : Nat → Status} (A : Adv n st st') {z : Ver} :
    ∀ {c : Chain}, Lk st z c → Lk st' z c
  | [], _ => trivial
  | e :: t, h => by
    unfold Lk at h ⊢
    split
    · next hl => rw [if_pos hl] at h; exact Lk.adv A h
    · next hl =>
      rw [if_neg hl] at h
      refine ⟨h.1, ?_⟩
      rcases h.2 with h | h | h
      · exact Or.inl h
      · right; left
        have hr : st e.oxid ≠ .running := by intro e'; rw [finished, e'] at h; simp at h
        unfold finished at h ⊢; rw [(A _).1 hr]; exact h
      · exact Or.inr (Or.inr (Lk.adv A h))

theorem TopLocks.adv {n : Nat} {st st' : Nat → Status} (A : Adv n st st') :
    ∀ {c : Chain}, TopLocks st c → TopLocks st' c
  | [], _ => trivial
  | _ :: _, h => fun hz => ⟨(h hz).1, (h hz).2.1.adv A, (h hz).2.2.adv A⟩

theorem Lk.of_mayLock {st : Nat → Status} {x : Nat} {z : Ver} (hx : z.oxid = x) :
    ∀ {c : Chain}, (∀ e ∈ c, e.loc < z.loc) → mayLock st x c = true → Lk st z c
  | [], _, h => by simp [mayLock] at h
  | e :: t, hl, h => by
    unfold mayLock at h; unfold Lk
    split
    · next hk => rw [if_pos hk] at h; exact Lk.of_mayLock hx (fun e he => hl e (by simp [he])) h
    · next hk =>
      rw [if_neg hk] at h
      simp only [Bool.and_eq_true, Bool.not_eq_true', Bool.or_eq_true, decide_eq_true_eq] at h
      refine ⟨h.1, ?_⟩
      rcases h.2 with (h | h) | h
      · exact Or.inl ⟨by rw [h, hx], hl e (by simp)⟩
      · exact Or.inr (Or.inl h)
      · exact Or.inr (Or.inr (Lk.of_mayLock hx (fun e he => hl e (by simp [he])) h))

/-- Removing records of a running transaction `x` from `m` on, or locks. -/
structure Cut (st : Nat → Status) (p : Ver → Bool) (c : Chain) : Prop where
  /-- a version that goes takes the later records of its transaction with it -/
  same : ∀ a ∈ c, ∀ b ∈ c, p a = false → a.lock = false → a.oxid = b.oxid → a.loc < b.loc → p b = false
  /-- versions that go belong to running transactions -/
  run : ∀ a ∈ c, p a = false → a.lock = false → st a.oxid = .running

theorem Cut.tail {st : Nat → Status} {p : Ver → Bool} {e : Ver} {c : Chain} (h : Cut st p (e :: c)) :
    Cut st p c :=
  ⟨fun a ha b hb => h.same a (by simp [ha]) b (by simp [hb]), fun a ha => h.run a (by simp [ha])⟩

theorem mem_plain {c : Chain} {e : Ver} : e ∈ plain c ↔ e ∈ c ∧ e.lock = false := by
  simp [plain]

theorem plain_filter (p : Ver → Bool) (c : Chain) : plain (c.filter p) = (plain c).filter p := by
  simp only [plain, List.filter_filter]
  congr 1; funext e; rw [Bool.and_comm]

theorem plain_cons_lock {e : Ver} {c : Chain} (h : e.lock = true) : plain (e :: c) = plain c := by
  simp [plain, h]

theorem plain_cons {e : Ver} {c : Chain} (h : e.lock = false) : plain (e :: c) = e :: plain c := by
  simp [plain, h]

theorem LockOK.filter {st : Nat → Status} {p : Ver → Bool} : ∀ {c : Chain}, Cut st p c →
    LockOK st c → LockOK st (c.filter p)
  | [], _, _ => trivial
  | z :: t, C, ⟨h1, h2⟩ => by
    have ih := LockOK.filter C.tail h2
    cases hp : p z with
    | false => simpa [List.filter_cons, hp] using ih
    | true =>
      rw [List.filter_cons, if_pos hp]
      refine ⟨fun hz => ⟨(h1 hz).1, fun w hw => ?_⟩, ih⟩
      rw [plain_filter] at hw
      cases hq : plain t with
      | nil => rw [hq] at hw; simp at hw
      | cons v r =>
        have g := (h1 hz).2 v (by simp [hq])
        have hv : v ∈ t ∧ v.lock = false := mem_plain.1 (by rw [hq]; simp)
        cases hpv : p v with
        | true =>
          rw [hq, List.filter_cons, if_pos hpv] at hw
          simp at hw; subst hw; exact g
        | false =>
          exfalso
          have hr := C.run v (by simp [hv.1]) hpv hv.2
          rcases g.2 with ⟨e, l⟩ | ⟨cw, e, _⟩
          · have := C.same v (by simp [hv.1]) z (by simp) hpv hv.2 e l
            rw [hp] at this; simp at this
          · rw [hr] at e; simp at e

theorem skip_filter_suffix {p : Ver → Bool} : ∀ (c : Chain),
    ∃ a, a ++ underTop (c.filter p) = (underTop c).filter p
  | [] => ⟨[], rfl⟩
  | e :: t => by
    obtain ⟨a, ha⟩ := skip_filter_suffix (p := p) t
    cases hl : e.lock with
    | true =>
      have h1 : underTop (e :: t) = underTop t := by simp [underTop, skipLocks, hl]
      cases hp : p e with
      | true =>
        refine ⟨a, ?_⟩
        rw [List.filter_cons, if_pos hp, h1]
        rw [show underTop (e :: t.filter p) = underTop (t.filter p) by simp [underTop, skipLocks, hl]]
        exact ha
      | false => exact ⟨a, by simpa [List.filter_cons, hp, h1] using ha⟩
    | false =>
      have h1 : underTop (e :: t) = t := by simp [underTop, skipLocks, hl]
      cases hp : p e with
      | true =>
        refine ⟨[], ?_⟩
        rw [List.filter_cons, if_pos hp, h1]
        simp [underTop, skipLocks, hl]
      | false =>
        rw [h1]
        simp only [List.filter_cons, hp, Bool.false_eq_true, if_false]
        -- the chain below the top of the rest is a suffix of the rest
        have : ∀ (c : Chain), ∃ b, b ++ underTop c = c := by
          intro c
          induction c with
          | nil => exact ⟨[], rfl⟩
          | cons f c ih =>
            obtain ⟨b, hb⟩ := ih
            cases hf : f.lock with
            | true =>
              refine ⟨f :: b, ?_⟩
              rw [show underTop (f :: c) = underTop c by simp [underTop, skipLocks, hf]]
              simp [hb]
            | false => exact ⟨[f], by simp [underTop, skipLocks, hf]⟩
        exact this _

theorem LockOK.suffix {st : Nat → Status} : ∀ {a b : Chain}, LockOK st (a ++ b) → LockOK st b
  | [], _, h => h
  | _ :: a, _, h => LockOK.suffix (a := a) h.2

theorem underTop_sub : ∀ (c : Chain) (e : Ver), e ∈ underTop c → e ∈ c := by
  intro c
  induction c with
  | nil => intro e h; simp [underTop, skipLocks] at h
  | cons f c ih =>
    intro e h
    cases hf : f.lock with
    | true =>
      rw [show underTop (f :: c) = underTop c by simp [underTop, skipLocks, hf]] at h
      exact List.mem_cons_of_mem _ (ih e h)
    | false =>
      rw [show underTop (f :: c) = c by simp [underTop, skipLocks, hf]] at h
      exact List.mem_cons_of_mem _ h

theorem LockOK.cut {st : Nat → Status} {p : Ver → Bool} {c : Chain} (C : Cut st p c)
    (h : LockOK st (underTop c)) : LockOK st (underTop (c.filter p)) := by
  obtain ⟨a, ha⟩ := skip_filter_suffix (p := p) c
  have : LockOK st ((underTop c).filter p) :=
    LockOK.filter ⟨fun a ha b hb => C.same a (underTop_sub _ _ ha) b (underTop_sub _ _ hb),
      fun a ha => C.run a (underTop_sub _ _ ha)⟩ h
  rw [← ha] at this
  exact this.suffix

theorem mem_skip2 {a z e : Ver} {t : Chain} (h : a ∈ z :: t) : a ∈ z :: e :: t := by
  simp only [List.mem_cons] at h ⊢
  rcases h with h | h
  · exact Or.inl h
  · exact Or.inr (Or.inr h)

theorem Lk.filter {st : Nat → Status} {p : Ver → Bool} {z : Ver} (hz : p z = true) :
    ∀ {c : Chain}, Cut st p (z :: c) → Lk st z c → Lk st z (c.filter p)
  | [], _, _ => trivial
  | e :: t, C, h => by
    have C' : Cut st p (z :: t) :=
      ⟨fun a ha b hb => C.same a (mem_skip2 ha) b (mem_skip2 hb), fun a ha => C.run a (mem_skip2 ha)⟩
    unfold Lk at h
    by_cases hl : e.lock = true
    · rw [if_pos hl] at h
      have ih := Lk.filter hz C' h
      cases hp : p e with
      | true => rw [List.filter_cons, if_pos hp]; unfold Lk; rw [if_pos hl]; exact ih
      | false => simpa [List.filter_cons, hp] using ih
    · rw [if_neg hl] at h
      have hl' : e.lock = false := by simpa using hl
      cases hp : p e with
      | true =>
        rw [List.filter_cons, if_pos hp]; unfold Lk; rw [if_neg hl]
        refine ⟨h.1, ?_⟩
        rcases h.2 with h | h | h
        · exact Or.inl h
        · exact Or.inr (Or.inl h)
        · exact Or.inr (Or.inr (Lk.filter hz C' h))
      | false =>
        have hr := C.run e (by simp) hp hl'
        have : Lk st z t := by
          rcases h.2 with ⟨a, b⟩ | h | h
          · have := C.same e (by simp) z (by simp) hp hl' a b
            rw [hz] at this; simp at this
          · rw [finished, hr] at h; simp at h
          · exact h
        simpa [List.filter_cons, hp] using Lk.filter hz C' this

theorem Lk.of_good {st : Nat → Status} {z : Ver} : ∀ {c : Chain},
    (∀ w, (plain c).head? = some w → Good st z w) → Lk st z c
  | [], _ => trivial
  | e :: t, h => by
    unfold Lk
    split
    · next hl => exact Lk.of_good (by simpa [plain, hl] using h)
    · next hl =>
      have g := h e (by simp [plain, hl])
      refine ⟨g.1, ?_⟩
      rcases g.2 with g | ⟨cw, g, _⟩
      · exact Or.inl g
      · exact Or.inr (Or.inl (by simp [finished, g]))

theorem TopLocks.of_lockOK {st : Nat → Status} : ∀ {c : Chain}, LockOK st c → TopLocks st c
  | [], _ => trivial
  | _ :: _, ⟨h1, h2⟩ => fun hz => ⟨(h1 hz).1, Lk.of_good (h1 hz).2, TopLocks.of_lockOK h2⟩

theorem TopLocks.filter {st : Nat → Status} {p : Ver → Bool} : ∀ {c : Chain}, Cut st p c →
    LockOK st (underTop c) → TopLocks st c → TopLocks st (c.filter p)
  | [], _, _, _ => trivial
  | e :: t, C, hk, h => by
    cases hl : e.lock with
    | false =>
      rw [show underTop (e :: t) = t by simp [underTop, skipLocks, hl]] at hk
      cases hp : p e with
      | true =>
        rw [List.filter_cons, if_pos hp]
        intro h'; rw [hl] at h'; simp at h'
      | false =>
        simpa [List.filter_cons, hp] using TopLocks.of_lockOK (hk.filter C.tail)
    | true =>
      rw [show underTop (e :: t) = underTop t by simp [underTop, skipLocks, hl]] at hk
      obtain ⟨h0, h1, h2⟩ := h hl
      have ih := TopLocks.filter C.tail hk h2
      cases hp : p e with
      | true =>
        rw [List.filter_cons, if_pos hp]
        exact fun _ => ⟨h0, h1.filter hp C, ih⟩
      | false => simpa [List.filter_cons, hp] using ih

theorem Lk.head {st : Nat → Status} {z w : Ver} : ∀ {c : Chain}, Lk st z c →
    (plain c).head? = some w → w.del = false
  | [], _, h => by simp [plain] at h
  | e :: t, hk, h => by
    unfold Lk at hk
    split at hk
    · next hl => exact Lk.head hk (by simpa [plain, hl] using h)
    · next hl =>
      have : (plain (e :: t)).head? = some e := by simp [plain, hl]
      rw [this] at h; simp at h; subst h; exact hk.1

/-- The chain of a regular change: locks that remain lie well on the version below. -/
theorem LockOK.of_top {st : Nat → Status} : ∀ {c : Chain}, LockOK st (underTop c) → TopLocks st c →
    (∀ z ∈ c.takeWhile (fun f => f.lock), ∀ w, (plain c).head? = some w →
      (st z.oxid = .running ∧ ∃ q, st w.oxid = .committed q) ∨ w.oxid = z.oxid) →
    c.Pairwise (fun a b => b.loc < a.loc) → LockOK st c
  | [], _, _, _, _ => trivial
  | e :: t, hk, ht, hw, hl => by
    cases h : e.lock with
    | false =>
      rw [show underTop (e :: t) = t by simp [underTop, skipLocks, h]] at hk
      exact ⟨fun h' => by rw [h] at h'; simp at h', hk⟩
    | true =>
      rw [show underTop (e :: t) = underTop t by simp [underTop, skipLocks, h]] at hk
      obtain ⟨h0, h1, h2⟩ := ht h
      have hp : plain (e :: t) = plain t := by simp [plain, h]
      have hl' := List.pairwise_cons.1 hl
      refine ⟨fun _ => ⟨h0, fun w hw' => ?_⟩, LockOK.of_top hk h2 (fun z hz w hq =>
        hw z (by simp [List.takeWhile_cons, h, hz]) w (by rw [hp]; exact hq)) hl'.2⟩
      have hm : w ∈ t ∧ w.lock = false := by
        apply mem_plain.1; exact List.mem_of_mem_head? (by rw [hw']; rfl)
      refine ⟨h1.head hw', ?_⟩
      rcases hw e (by simp [List.takeWhile_cons, h]) w (by rw [hp]; exact hw') with ⟨hr, q, hq⟩ | hq
      · exact Or.inr ⟨q, hq, fun cz hz => by rw [hr] at hz; simp at hz⟩
      · exact Or.inl ⟨hq, hl'.1 w hm.1⟩

end Verif.Visible
