import Verif.PageState.Chain

/-!
# The wait lists

The invariant behind C14.  For the proof every backend gets a place (`Loc`): on
no list, on the wait list of a page, or on the private wake list of a backend in
`unlock_page_internal`.  The list of a page consists of four segments: the
waiters `n` that arrived after the last read of the state word, those the
present walk has kept (`k`) and not yet seen (`r`), and those the earlier,
failed attempts have kept (`o`).
-/

namespace Verif.PageState

inductive Loc where
  | none
  | page (b : Nat)
  | wake (u : Nat)
deriving DecidableEq

structure Ghost where
  n : Nat → List Nat
  k : Nat → List Nat
  r : Nat → List Nat
  o : Nat → List Nat
  w : Nat → List Nat
  loc : Nat → Loc

def Ghost.list (g : Ghost) (b : Nat) : List Nat := g.n b ++ (g.k b ++ (g.r b ++ g.o b))

/-- The page whose list the backend is walking. -/
def Pc.unlPage : Pc → Option Nat
  | .walk u => some u.b
  | .ucas u => some u.b
  | _ => none

/-- The page whose waiters are on the backend's wake list. -/
def Pc.actPage : Pc → Option Nat
  | .walk u => some u.b
  | .ucas u => some u.b
  | .wake b _ => some b
  | .post b _ _ => some b
  | _ => none

/-- A waiter that will try to take the page lock itself once woken. -/
def lockWaiter (s : St) (e : Nat) : Prop :=
  s.status e ≠ .nonExclusive ∧ s.inserted e = false

structure Walk (s : St) (g : Ghost) (p : Nat) (u : Unl) : Prop where
  new : Chain s.next (s.word u.b).tail (g.n u.b) u.s.tail
  kept : Chain s.next u.newTail (g.k u.b) u.cur
  prev : u.prev = (g.k u.b).getLast?
  rest : Chain s.next u.cur (g.r u.b) u.prevTail
  old : Chain s.next u.patch (g.o u.b) none
  wake : Chain s.next u.wakeHead (g.w p) none
  exclPrev : u.exclPrev = none
  excl : u.exclWoken = false → u.excl = (g.k u.b).head?
  woken : u.exclWoken = true → ∃ e, e ∈ g.w p ∧ lockWaiter s e
  oldWoken : g.o u.b ≠ [] → u.exclWoken = true
  stay : ∀ x, x ∈ g.k u.b ∨ x ∈ g.o u.b → shouldWake s u.split x = false
  prevTail : ∀ x, u.prevTail = some x → x ∈ g.o u.b ∨ x ∈ g.w p
  tail : ∀ x, u.s.tail = some x → x ∈ g.k u.b ∨ x ∈ g.r u.b ∨ x ∈ g.o u.b ∨ x ∈ g.w p

structure Ucas (s : St) (g : Ghost) (p : Nat) (u : Unl) : Prop where
  new : Chain s.next (s.word u.b).tail (g.n u.b) u.s.tail
  k_nil : g.k u.b = []
  r_nil : g.r u.b = []
  old : Chain s.next u.newTail (g.o u.b) none
  wake : Chain s.next u.wakeHead (g.w p) none
  woken : u.exclWoken = true → ∃ e, e ∈ g.w p ∧ lockWaiter s e
  oldWoken : g.o u.b ≠ [] → u.exclWoken = true
  stay : ∀ x, x ∈ g.o u.b → shouldWake s u.split x = false
  tail : ∀ x, u.s.tail = some x → x ∈ g.o u.b ∨ x ∈ g.w p

def uInv (s : St) (g : Ghost) (p : Nat) : Pc → Prop
  | .walk u => Walk s g p u
  | .ucas u => Ucas s g p u
  | .wake _ h => Chain s.next h (g.w p) none
  | .post _ _ nx => Chain s.next nx (g.w p) none
  | _ => g.w p = []

structure QInv (s : St) (g : Ghost) : Prop where
  page_mem : ∀ b p, p ∈ g.list b ↔ g.loc p = .page b
  page_nodup : ∀ b, (g.list b).Nodup
  wake_mem : ∀ u p, p ∈ g.w u ↔ g.loc p = .wake u
  wake_nodup : ∀ u, (g.w u).Nodup
  sleeper : ∀ p, g.loc p ≠ .none → ∃ b k, s.pc p = .sleep b k ∧ s.status p = k.status ∧
    (∀ b', g.loc p = .page b' → b' = b) ∧
    (∀ u, g.loc p = .wake u → (s.pc u).actPage = some b)
  woken : ∀ p b k, s.pc p = .sleep b k → g.loc p = .none → s.status p = .wakeUp
  ins : ∀ p, s.inserted p = true → ∃ b, s.pc p = .sleep b .insert
  casq : ∀ p b k w, s.pc p = .casQueue b k w → s.next p = w.tail ∧ s.status p = k.status
  free : ∀ b, (∀ u, (s.pc u).unlPage ≠ some b) →
    Chain s.next (s.word b).tail (g.n b) none ∧ g.k b = [] ∧ g.r b = [] ∧ g.o b = []
  unl : ∀ u, uInv s g u (s.pc u)
  nocrash : ∀ p, (s.pc p) ≠ .crash

def ghost0 : Ghost where
  n := fun _ => []
  k := fun _ => []
  r := fun _ => []
  o := fun _ => []
  w := fun _ => []
  loc := fun _ => .none

theorem init_qInv : QInv init ghost0 := by
  constructor <;> simp [init, ghost0, Ghost.list, Chain, uInv]

theorem unlPage_unlocking {c : Pc} {b : Nat} (h : c.unlPage = some b) :
    ∃ w, c.unlocking = some (b, w) := by
  cases c <;> simp_all [Pc.unlPage, Pc.unlocking]

/-- Only one backend unlocks a page at a time. -/
theorem LockInv.unl_unique {s : St} (h : LockInv s) {p q b : Nat} {w : Option Word}
    (hp : (s.pc p).unlocking = some (b, w)) (hq : (s.pc q).unlPage = some b) : p = q := by
  obtain ⟨w', hq'⟩ := unlPage_unlocking hq
  obtain ⟨v1, h1⟩ := (holds_iff s p b).1 (h.unl p b w hp).1
  obtain ⟨v2, h2⟩ := (holds_iff s q b).1 (h.unl q b w' hq').1
  exact h.excl p q _ _ h1 h2 rfl

theorem status_ne_wakeUp (k : Kind) : k.status ≠ .wakeUp := by
  cases k <;> simp [Kind.status]

section
variable {s t : St} {g g' : Ghost}

theorem QInv.loc_none (h : QInv s g) {p : Nat} (hp : ∀ b k, s.pc p ≠ .sleep b k) :
    g.loc p = .none := by
  apply Decidable.byContradiction
  intro hc
  obtain ⟨b, k, h1, _⟩ := h.sleeper p hc
  exact hp b k h1

/-- Entries a change leaves alone. -/
def Same (s t : St) (x : Nat) : Prop :=
  t.next x = s.next x ∧ t.status x = s.status x ∧ t.inserted x = s.inserted x

theorem Same.lockWaiter {x : Nat} (h : Same s t x) (hl : lockWaiter s x) : lockWaiter t x := by
  simp only [PageState.lockWaiter, h.2.1, h.2.2]; exact hl

theorem Same.shouldWake {x : Nat} {sp : Bool} (h : Same s t x) :
    shouldWake t sp x = shouldWake s sp x := by
  simp only [PageState.shouldWake, h.2.1, h.2.2]

theorem mem_list_iff {b x : Nat} :
    x ∈ g.list b ↔ x ∈ g.n b ∨ x ∈ g.k b ∨ x ∈ g.r b ∨ x ∈ g.o b := by
  simp [Ghost.list]

theorem uInv_frame {c : Pc} {p : Nat} (h : uInv s g p c) (hw : g'.w p = g.w p)
    (hx : ∀ x, x ∈ g.w p → Same s t x)
    (hb : ∀ b, c.unlPage = some b → (t.word b).tail = (s.word b).tail ∧
      g'.n b = g.n b ∧ g'.k b = g.k b ∧ g'.r b = g.r b ∧ g'.o b = g.o b ∧
      ∀ x, x ∈ g.list b → Same s t x) : uInv t g' p c := by
  cases c with
  | walk u =>
    obtain ⟨h1, h2, h3, h4, h5, h6⟩ := hb u.b rfl
    simp only [mem_list_iff] at h6
    have h : Walk s g p u := h
    show Walk t g' p u
    constructor
    · rw [h1, h2]; exact h.new.congr (fun x hx' => (h6 x (.inl hx')).1)
    · rw [h3]; exact h.kept.congr (fun x hx' => (h6 x (.inr (.inl hx'))).1)
    · rw [h3]; exact h.prev
    · rw [h4]; exact h.rest.congr (fun x hx' => (h6 x (.inr (.inr (.inl hx')))).1)
    · rw [h5]; exact h.old.congr (fun x hx' => (h6 x (.inr (.inr (.inr hx')))).1)
    · rw [hw]; exact h.wake.congr (fun x hx' => (hx x hx').1)
    · exact h.exclPrev
    · rw [h3]; exact h.excl
    · intro he
      obtain ⟨e, he1, he2⟩ := h.woken he
      exact ⟨e, by rw [hw]; exact he1, (hx e he1).lockWaiter he2⟩
    · rw [h5]; exact h.oldWoken
    · rw [h3, h5]
      intro x hx'
      rw [(h6 x (by rcases hx' with hx' | hx' <;> simp [hx'])).shouldWake]
      exact h.stay x hx'
    · rw [h5, hw]; exact h.prevTail
    · rw [h3, h4, h5, hw]; exact h.tail
  | ucas u =>
    obtain ⟨h1, h2, h3, h4, h5, h6⟩ := hb u.b rfl
    simp only [mem_list_iff] at h6
    have h : Ucas s g p u := h
    show Ucas t g' p u
    constructor
    · rw [h1, h2]; exact h.new.congr (fun x hx' => (h6 x (.inl hx')).1)
    · rw [h3]; exact h.k_nil
    · rw [h4]; exact h.r_nil
    · rw [h5]; exact h.old.congr (fun x hx' => (h6 x (.inr (.inr (.inr hx')))).1)
    · rw [hw]; exact h.wake.congr (fun x hx' => (hx x hx').1)
    · intro he
      obtain ⟨e, he1, he2⟩ := h.woken he
      exact ⟨e, by rw [hw]; exact he1, (hx e he1).lockWaiter he2⟩
    · rw [h5]; exact h.oldWoken
    · rw [h5]
      intro x hx'
      rw [(h6 x (by simp [hx'])).shouldWake]
      exact h.stay x hx'
    · rw [h5, hw]; exact h.tail
  | wake b hd =>
    show Chain _ _ _ _
    rw [hw]
    exact Chain.congr (fun x hx' => (hx x hx').1) h
  | post b q nx =>
    show Chain _ _ _ _
    rw [hw]
    exact Chain.congr (fun x hx' => (hx x hx').1) h
  | _ => show g'.w p = []; rw [hw]; exact h

/-- Nothing about waiting changes. -/
theorem QInv.frame0 (h : QInv s g) (hn : t.next = s.next) (hs : t.status = s.status)
    (hi : t.inserted = s.inserted) (hp : t.pc = s.pc)
    (hw : ∀ b, (t.word b).tail = (s.word b).tail) : QInv t g where
  page_mem := h.page_mem
  page_nodup := h.page_nodup
  wake_mem := h.wake_mem
  wake_nodup := h.wake_nodup
  sleeper := by rw [hp, hs]; exact h.sleeper
  woken := by rw [hp, hs]; exact h.woken
  ins := by rw [hp, hi]; exact h.ins
  casq := by rw [hp, hn, hs]; exact h.casq
  free := by intro b; rw [hp, hn, hw]; exact h.free b
  unl := by
    intro u
    rw [hp]
    refine uInv_frame (h.unl u) rfl (fun x _ => ⟨by rw [hn], by rw [hs], by rw [hi]⟩) ?_
    intro b _
    exact ⟨hw b, rfl, rfl, rfl, rfl, fun x _ => ⟨by rw [hn], by rw [hs], by rw [hi]⟩⟩
  nocrash := by rw [hp]; exact h.nocrash

/-- Points outside sleeping, unlocking and waking. -/
def Pc.plain : Pc → Prop
  | .sleep _ _ => False
  | .walk _ => False
  | .ucas _ => False
  | .wake _ _ => False
  | .post _ _ _ => False
  | .crash => False
  | _ => True

theorem plain_facts {c : Pc} (h : c.plain) :
    (∀ b k, c ≠ .sleep b k) ∧ c.unlPage = none ∧ c.actPage = none ∧ c ≠ .crash ∧
    (∀ s g p, uInv s g p c ↔ g.w p = []) := by
  cases c <;> simp_all [Pc.plain, Pc.unlPage, Pc.actPage, uInv]

/-- Backend `p`, which is on no list and wakes nobody, moves to a point outside
sleeping and unlocking; it may write its own entry. -/
theorem QInv.frame1 (h : QInv s g) (p : Nat)
    (hl : g.loc p = .none) (hwp : g.w p = []) (hup : (s.pc p).unlPage = none)
    (hpl : (t.pc p).plain) (hin : t.inserted p = false)
    (hcq : ∀ b k w, t.pc p = .casQueue b k w → t.next p = w.tail ∧ t.status p = k.status)
    (hq : ∀ q, q ≠ p → Same s t q ∧ t.pc q = s.pc q)
    (hw : ∀ b, (t.word b).tail = (s.word b).tail) : QInv t g := by
  obtain ⟨pf1, pf2, pf3, pf4, pf5⟩ := plain_facts hpl
  have hne : ∀ x, g.loc x ≠ .none → x ≠ p := fun x hx hxp => hx (hxp ▸ hl)
  have hsame : ∀ x, g.loc x ≠ .none → Same s t x := fun x hx => (hq x (hne x hx)).1
  constructor
  · exact h.page_mem
  · exact h.page_nodup
  · exact h.wake_mem
  · exact h.wake_nodup
  · intro q hlq
    have hqp := hne q hlq
    obtain ⟨b, k, h1, h2, h3, h4⟩ := h.sleeper q hlq
    refine ⟨b, k, by rw [(hq q hqp).2]; exact h1, by rw [(hq q hqp).1.2.1]; exact h2, h3, ?_⟩
    intro u hu
    have : u ≠ p := by
      intro hup'
      have := (h.wake_mem u q).2 hu
      rw [hup', hwp] at this
      cases this
    rw [(hq u this).2]; exact h4 u hu
  · intro q b k hqs hlq
    by_cases hqp : q = p
    · subst hqp; exact absurd hqs (pf1 b k)
    · rw [(hq q hqp).1.2.1]; exact h.woken q b k (by rw [← (hq q hqp).2]; exact hqs) hlq
  · intro q hi
    by_cases hqp : q = p
    · subst hqp; rw [hin] at hi; cases hi
    · rw [(hq q hqp).2]; exact h.ins q (by rw [← (hq q hqp).1.2.2]; exact hi)
  · intro q b k w hc
    by_cases hqp : q = p
    · subst hqp; exact hcq b k w hc
    · rw [(hq q hqp).1.1, (hq q hqp).1.2.1]
      exact h.casq q b k w (by rw [← (hq q hqp).2]; exact hc)
  · intro b hb
    rw [hw b]
    have := h.free b ?_
    · refine ⟨this.1.congr ?_, this.2⟩
      intro x hx
      exact (hsame x (by rw [(h.page_mem b x).1 (mem_list_iff.2 (.inl hx))]; simp)).1
    · intro u
      by_cases hu : u = p
      · subst hu; rw [hup]; simp
      · rw [← (hq u hu).2]; exact hb u
  · intro u
    by_cases hu : u = p
    · subst hu; rw [pf5]; exact hwp
    · rw [(hq u hu).2]
      refine uInv_frame (h.unl u) rfl ?_ ?_
      · intro x hx
        exact hsame x (by rw [(h.wake_mem u x).1 hx]; simp)
      · intro b _
        refine ⟨hw b, rfl, rfl, rfl, rfl, ?_⟩
        intro x hx
        exact hsame x (by rw [(h.page_mem b x).1 hx]; simp)
  · intro q
    by_cases hqp : q = p
    · subst hqp; exact pf4
    · rw [(hq q hqp).2]; exact h.nocrash q

theorem QInv.w_nil (h : QInv s g) {p : Nat} (hp : (s.pc p).plain ∨ ∃ b k, s.pc p = .sleep b k) :
    g.w p = [] ∧ (s.pc p).unlPage = none := by
  have hu := h.unl p
  rcases hp with h1 | ⟨b, k, h1⟩
  · obtain ⟨_, p2, _, _, p5⟩ := plain_facts h1
    rw [p5] at hu; exact ⟨hu, p2⟩
  · rw [h1] at hu ⊢; exact ⟨hu, rfl⟩

/-- The frame lemma for a backend at a plain point. -/
theorem QInv.plainStep (h : QInv s g) (p : Nat) (hp0 : (s.pc p).plain)
    (hpl : (t.pc p).plain) (hin : t.inserted p = s.inserted p)
    (hcq : ∀ b k w, t.pc p = .casQueue b k w → t.next p = w.tail ∧ t.status p = k.status)
    (hq : ∀ q, q ≠ p → Same s t q ∧ t.pc q = s.pc q)
    (hw : ∀ b, (t.word b).tail = (s.word b).tail) : QInv t g := by
  obtain ⟨p1, p2, p3, p4, p5⟩ := plain_facts hp0
  have hwn := h.w_nil (.inl hp0)
  refine h.frame1 p (h.loc_none p1) hwn.1 hwn.2 hpl ?_ hcq hq hw
  rw [hin]
  cases hi : s.inserted p with
  | false => rfl
  | true =>
    obtain ⟨b, hb⟩ := h.ins p hi
    exact absurd hb (p1 b _)

end

end Verif.PageState
