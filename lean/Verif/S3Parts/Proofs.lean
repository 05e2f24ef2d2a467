import Verif.S3Parts.Model

/-! # The parts of data files in S3 mode: proofs -/

namespace Verif.S3Parts

theorem count_congr {f g : Nat → Bool} : ∀ (n : Nat), (∀ v, v < n → f v = g v) → count f n = count g n := by
  intro n
  induction n with
  | zero => intro _; rfl
  | succ n ih =>
    intro h
    simp only [count]
    rw [ih (fun v hv => h v (by omega)), h n (by omega)]

theorem count_zero {f : Nat → Bool} : ∀ {n : Nat}, count f n = 0 → ∀ v, v < n → f v = false := by
  intro n
  induction n with
  | zero => intro _ v hv; omega
  | succ n ih =>
    intro h v hv
    simp only [count] at h
    by_cases hvn : v = n
    · subst hvn
      cases hf : f v with
      | false => rfl
      | true => rw [hf] at h; simp at h
    · exact ih (by omega) v (by omega)

theorem count_none {f : Nat → Bool} : ∀ {n : Nat}, (∀ v, v < n → f v = false) → count f n = 0 := by
  intro n
  induction n with
  | zero => intro _; rfl
  | succ n ih =>
    intro h
    simp only [count]
    rw [ih (fun v hv => h v (by omega)), h n (by omega)]
    rfl

theorem count_add {f g : Nat → Bool} {w : Nat} : ∀ {n : Nat}, w < n → f w = false → g w = true →
    (∀ v, v ≠ w → f v = g v) → count g n = count f n + 1 := by
  intro n
  induction n with
  | zero => intro h; omega
  | succ n ih =>
    intro h hf hg ho
    simp only [count]
    by_cases hw : w = n
    · subst hw
      rw [count_congr w (fun v hv => (ho v (by omega)).symm), hf, hg]
      simp
    · rw [ih (by omega) hf hg ho, ho n (by omega)]
      omega

/-- The process has the task to load the part, before it has been marked as loaded. -/
def Pc.isRd : Pc → Bool
  | .ask | .rd | .got _ | .fill | .claim => true
  | _ => false

/-- The process evicts the part. -/
def Pc.isEv : Pc → Bool
  | .ev | .zero => true
  | _ => false

/-- The part is marked as being written. -/
def Pc.isMarked : Pc → Bool
  | .up | .sent _ | .ok => true
  | _ => false

/-- Nobody holds the part locked and has written to it. -/
def unwritten (n : Nat) (s : St) : Prop := ∀ p, p < n → s.pc p ≠ .held true

/-- What holds in all states reached by such runs. -/
structure Inv (n : Nat) (s : St) : Prop where
  locks : s.hd.locks = count (fun p => (s.pc p).isHeld) n
  held : ∀ p, p < n → (s.pc p).isHeld = true → s.hd.st = .loaded
  rtok : ∀ p, p < n → (s.pc p).isRd = true → s.hd.st = .loading
  rone : ∀ p q, p < n → q < n → (s.pc p).isRd = true → (s.pc q).isRd = true → p = q
  rq : s.qr ≤ 1
  rq1 : s.qr = 1 → s.hd.st = .loading ∧ ∀ p, p < n → (s.pc p).isRd = false
  evs : ∀ p, p < n → (s.pc p).isEv = true → s.hd.st = .evicting
  eone : ∀ p q, p < n → q < n → (s.pc p).isEv = true → (s.pc q).isEv = true → p = q
  dl : s.hd.dirty = true ∨ s.hd.writing = true → s.hd.st = .loaded
  sd : s.hd.sched = true → s.hd.dirty = true
  wt : ∀ p, p < n → (s.pc p).isTask = true → s.hd.sched = true
  tone : ∀ p q, p < n → q < n → (s.pc p).isTask = true → (s.pc q).isTask = true → p = q
  wq : s.qw ≤ 1
  wq1 : s.qw = 1 → s.hd.sched = true ∧ ∀ p, p < n → (s.pc p).isTask = false
  wu : ∀ p, p < n → (s.pc p).isUp = true → s.hd.writing = true ∨ s.hd.dirty = true
  wm : ∀ p, p < n → (s.pc p).isMarked = true → s.hd.writing = true
  uone : ∀ p q, p < n → q < n → (s.pc p).isUp = true → (s.pc q).isUp = true → p = q
  d1 : s.hd.st = .loaded → s.loc = s.cur
  d2 : s.hd.st ≠ .loaded → s.s3 = some s.cur
  dg : ∀ p c, p < n → s.pc p = .got c → c = s.cur
  df : ∀ p, p < n → s.pc p = .fill ∨ s.pc p = .claim → s.loc = s.cur
  d3 : s.hd.st = .loaded → s.hd.dirty = false → s.hd.writing = false → unwritten n s → s.cur = 0 ∨ s.s3 = some s.cur
  d4 : ∀ p c, p < n → s.pc p = .sent c → s.hd.dirty = false → unwritten n s → c = s.cur
  d5 : ∀ p, p < n → s.pc p = .ok → s.hd.dirty = false → unwritten n s → s.s3 = some s.cur

theorem inv_init (n : Nat) : Inv n init := by
  constructor <;> simp [init, Pc.isRd, Pc.isEv, Pc.isMarked, Pc.isHeld, Pc.isUp, Pc.isTask]
  exact (count_none (fun _ _ => rfl)).symm

theorem at_pc (s : St) (p : Nat) (c : Pc) (q : Nat) : (s.at p c).pc q = if q = p then c else s.pc q := rfl

/-- The number of locks after a step which takes and releases none. -/
theorem locks_same {n : Nat} {s : St} {p : Nat} {c : Pc} (h : c.isHeld = (s.pc p).isHeld) :
    count (fun q => ((s.at p c).pc q).isHeld) n = count (fun q => (s.pc q).isHeld) n := by
  apply count_congr
  intro v _
  rw [at_pc]
  split
  · rename_i hv; subst hv; exact h
  · rfl

theorem b_idle : Pc.isHeld .idle = false ∧ Pc.isRd .idle = false ∧ Pc.isEv .idle = false ∧ Pc.isTask .idle = false ∧ Pc.isUp .idle = false ∧ Pc.isMarked .idle = false :=
  ⟨rfl, rfl, rfl, rfl, rfl, rfl⟩

theorem b_ask : Pc.isHeld .ask = false ∧ Pc.isRd .ask = true ∧ Pc.isEv .ask = false ∧ Pc.isTask .ask = false ∧ Pc.isUp .ask = false ∧ Pc.isMarked .ask = false :=
  ⟨rfl, rfl, rfl, rfl, rfl, rfl⟩

theorem b_held (b : Bool) : Pc.isHeld (.held b) = true ∧ Pc.isRd (.held b) = false ∧ Pc.isEv (.held b) = false ∧ Pc.isTask (.held b) = false ∧ Pc.isUp (.held b) = false ∧ Pc.isMarked (.held b) = false :=
  ⟨rfl, rfl, rfl, rfl, rfl, rfl⟩

theorem b_put : Pc.isHeld .put = false ∧ Pc.isRd .put = false ∧ Pc.isEv .put = false ∧ Pc.isTask .put = true ∧ Pc.isUp .put = false ∧ Pc.isMarked .put = false :=
  ⟨rfl, rfl, rfl, rfl, rfl, rfl⟩

theorem b_rd : Pc.isHeld .rd = false ∧ Pc.isRd .rd = true ∧ Pc.isEv .rd = false ∧ Pc.isTask .rd = false ∧ Pc.isUp .rd = false ∧ Pc.isMarked .rd = false :=
  ⟨rfl, rfl, rfl, rfl, rfl, rfl⟩

theorem b_got (c : Nat) : Pc.isHeld (.got c) = false ∧ Pc.isRd (.got c) = true ∧ Pc.isEv (.got c) = false ∧ Pc.isTask (.got c) = false ∧ Pc.isUp (.got c) = false ∧ Pc.isMarked (.got c) = false :=
  ⟨rfl, rfl, rfl, rfl, rfl, rfl⟩

theorem b_fill : Pc.isHeld .fill = false ∧ Pc.isRd .fill = true ∧ Pc.isEv .fill = false ∧ Pc.isTask .fill = false ∧ Pc.isUp .fill = false ∧ Pc.isMarked .fill = false :=
  ⟨rfl, rfl, rfl, rfl, rfl, rfl⟩

theorem b_claim : Pc.isHeld .claim = false ∧ Pc.isRd .claim = true ∧ Pc.isEv .claim = false ∧ Pc.isTask .claim = false ∧ Pc.isUp .claim = false ∧ Pc.isMarked .claim = false :=
  ⟨rfl, rfl, rfl, rfl, rfl, rfl⟩

theorem b_rdone : Pc.isHeld .rdone = false ∧ Pc.isRd .rdone = false ∧ Pc.isEv .rdone = false ∧ Pc.isTask .rdone = false ∧ Pc.isUp .rdone = false ∧ Pc.isMarked .rdone = false :=
  ⟨rfl, rfl, rfl, rfl, rfl, rfl⟩

theorem b_wrf : Pc.isHeld (.wr false) = false ∧ Pc.isRd (.wr false) = false ∧ Pc.isEv (.wr false) = false ∧ Pc.isTask (.wr false) = true ∧ Pc.isUp (.wr false) = false ∧ Pc.isMarked (.wr false) = false :=
  ⟨rfl, rfl, rfl, rfl, rfl, rfl⟩

theorem b_wrt : Pc.isHeld (.wr true) = false ∧ Pc.isRd (.wr true) = false ∧ Pc.isEv (.wr true) = false ∧ Pc.isTask (.wr true) = false ∧ Pc.isUp (.wr true) = true ∧ Pc.isMarked (.wr true) = false :=
  ⟨rfl, rfl, rfl, rfl, rfl, rfl⟩

theorem b_up : Pc.isHeld .up = false ∧ Pc.isRd .up = false ∧ Pc.isEv .up = false ∧ Pc.isTask .up = false ∧ Pc.isUp .up = true ∧ Pc.isMarked .up = true :=
  ⟨rfl, rfl, rfl, rfl, rfl, rfl⟩

theorem b_sent (c : Nat) : Pc.isHeld (.sent c) = false ∧ Pc.isRd (.sent c) = false ∧ Pc.isEv (.sent c) = false ∧ Pc.isTask (.sent c) = false ∧ Pc.isUp (.sent c) = true ∧ Pc.isMarked (.sent c) = true :=
  ⟨rfl, rfl, rfl, rfl, rfl, rfl⟩

theorem b_ok : Pc.isHeld .ok = false ∧ Pc.isRd .ok = false ∧ Pc.isEv .ok = false ∧ Pc.isTask .ok = false ∧ Pc.isUp .ok = true ∧ Pc.isMarked .ok = true :=
  ⟨rfl, rfl, rfl, rfl, rfl, rfl⟩

theorem b_wdone : Pc.isHeld .wdone = false ∧ Pc.isRd .wdone = false ∧ Pc.isEv .wdone = false ∧ Pc.isTask .wdone = false ∧ Pc.isUp .wdone = false ∧ Pc.isMarked .wdone = false :=
  ⟨rfl, rfl, rfl, rfl, rfl, rfl⟩

theorem b_ev : Pc.isHeld .ev = false ∧ Pc.isRd .ev = false ∧ Pc.isEv .ev = true ∧ Pc.isTask .ev = false ∧ Pc.isUp .ev = false ∧ Pc.isMarked .ev = false :=
  ⟨rfl, rfl, rfl, rfl, rfl, rfl⟩

theorem b_zero : Pc.isHeld .zero = false ∧ Pc.isRd .zero = false ∧ Pc.isEv .zero = true ∧ Pc.isTask .zero = false ∧ Pc.isUp .zero = false ∧ Pc.isMarked .zero = false :=
  ⟨rfl, rfl, rfl, rfl, rfl, rfl⟩

/-- The fields of a state. -/
theorem facts {s s' : St} {hd : Part} {loc : Nat} {s3 : Option Nat} {qr qw cur p : Nat} {c : Pc}
    (hs : (⟨hd, loc, s3, qr, qw, set s.pc p c, cur⟩ : St) = s') :
    s'.hd = hd ∧ s'.loc = loc ∧ s'.s3 = s3 ∧ s'.qr = qr ∧ s'.qw = qw ∧ s'.cur = cur ∧ s'.pc p = c ∧
      ∀ q, q ≠ p → s'.pc q = s.pc q := by
  subst hs
  refine ⟨rfl, rfl, rfl, rfl, rfl, rfl, if_pos rfl, fun q hq => if_neg hq⟩

theorem locks_eq {n : Nat} {s s' : St} {p : Nat} (ho : ∀ q, q ≠ p → s'.pc q = s.pc q)
    (h : (s'.pc p).isHeld = (s.pc p).isHeld) :
    count (fun q => (s'.pc q).isHeld) n = count (fun q => (s.pc q).isHeld) n := by
  apply count_congr
  intro v _
  by_cases hv : v = p
  · subst hv; exact h
  · rw [ho v hv]

theorem unwritten_of {n : Nat} {s s' : St} {p : Nat} (ho : ∀ q, q ≠ p → s'.pc q = s.pc q)
    (h : s.pc p ≠ .held true) (hu : unwritten n s') : unwritten n s := by
  intro q hq hc
  by_cases hqp : q = p
  · subst hqp; exact h hc
  · exact hu q hq (by rw [ho q hqp]; exact hc)

theorem kinds (s : St) : (∀ q, (s.pc q).isMarked = true → (s.pc q).isUp = true) ∧ (∀ q c, s.pc q = .got c → (s.pc q).isRd = true) ∧
    (∀ q, s.pc q = .fill → (s.pc q).isRd = true) ∧ (∀ q, s.pc q = .claim → (s.pc q).isRd = true) ∧
    (∀ q c, s.pc q = .sent c → (s.pc q).isUp = true) ∧ (∀ q, s.pc q = .ok → (s.pc q).isUp = true) := by
  refine ⟨fun q h => ?_, fun q c h => ?_, fun q h => ?_, fun q h => ?_, fun q c h => ?_, fun q h => ?_⟩
  · revert h; cases s.pc q <;> simp [Pc.isMarked, Pc.isUp]
  all_goals rw [h]; rfl

theorem step_lock {n p : Nat} {s s' : St} (hp : p < n) (h : Inv n s) (hs : step s p .lock = some s') : Inv n s' := by
  simp only [step] at hs
  split at hs
  · rename_i hpc
    split at hs
    · rename_i hst
      injection hs with hs
      have ⟨e1, e2, e3, e4, e5, e6, e7, e8⟩ := facts (s := s) hs
      try simp only [Part.change, St.chg] at e1 e2 e3 e4 e5 e6
      have f1 : s'.hd.locks = _ := congrArg Part.locks e1
      have f2 : s'.hd.st = _ := congrArg Part.st e1
      have f3 : s'.hd.dirty = _ := congrArg Part.dirty e1
      have f4 : s'.hd.writing = _ := congrArg Part.writing e1
      have f5 : s'.hd.sched = _ := congrArg Part.sched e1
      try dsimp only at f1 f2 f3 f4 f5
      clear e1
      have hl : count (fun q => (s'.pc q).isHeld) n = count (fun q => (s.pc q).isHeld) n + 1 :=
        count_add hp (by rw [hpc]; rfl) (by rw [e7]; rfl) (fun v hv => by rw [e8 v hv])
      have hun : unwritten n s' → unwritten n s := unwritten_of e8 (by rw [hpc]; simp)
      have ⟨m1, m2, m3, m4, m5, m6⟩ := kinds s
      have ba := b_idle
      have bb := b_held false
      obtain ⟨locks, held, rtok, rone, rq, rq1, evs, eone, dl, sd, wt, tone, wq, wq1, wu, wm, uone, d1, d2, dg, df, d3, d4, d5⟩ := h
      clear hs
      constructor
      · rw [f1, hl]; omega
      all_goals (clear locks hl f1; grind)
    · rename_i hst
      injection hs with hs
      have ⟨e1, e2, e3, e4, e5, e6, e7, e8⟩ := facts (s := s) hs
      try simp only [Part.change, St.chg] at e1 e2 e3 e4 e5 e6
      have f1 : s'.hd.locks = _ := congrArg Part.locks e1
      have f2 : s'.hd.st = _ := congrArg Part.st e1
      have f3 : s'.hd.dirty = _ := congrArg Part.dirty e1
      have f4 : s'.hd.writing = _ := congrArg Part.writing e1
      have f5 : s'.hd.sched = _ := congrArg Part.sched e1
      try dsimp only at f1 f2 f3 f4 f5
      clear e1
      have hl := locks_eq (n := n) e8 (by rw [e7, hpc]; try rfl)
      have hun : unwritten n s' → unwritten n s := unwritten_of e8 (by rw [hpc]; simp)
      have ⟨m1, m2, m3, m4, m5, m6⟩ := kinds s
      have ba := b_idle
      have bb := b_ask
      obtain ⟨locks, held, rtok, rone, rq, rq1, evs, eone, dl, sd, wt, tone, wq, wq1, wu, wm, uone, d1, d2, dg, df, d3, d4, d5⟩ := h
      clear hs
      constructor
      · rw [f1, hl]; assumption
      all_goals (clear locks hl f1; grind)
    · injection hs with hs; subst hs; exact h
  · cases hs

theorem step_ask {n p : Nat} {s s' : St} (hp : p < n) (h : Inv n s) (hs : step s p .ask = some s') : Inv n s' := by
  simp only [step] at hs
  split at hs
  · rename_i hpc
    injection hs with hs
    have ⟨e1, e2, e3, e4, e5, e6, e7, e8⟩ := facts (s := s) hs
    try simp only [Part.change, St.chg] at e1 e2 e3 e4 e5 e6
    have f1 : s'.hd.locks = _ := congrArg Part.locks e1
    have f2 : s'.hd.st = _ := congrArg Part.st e1
    have f3 : s'.hd.dirty = _ := congrArg Part.dirty e1
    have f4 : s'.hd.writing = _ := congrArg Part.writing e1
    have f5 : s'.hd.sched = _ := congrArg Part.sched e1
    try dsimp only at f1 f2 f3 f4 f5
    clear e1
    have hl := locks_eq (n := n) e8 (by rw [e7, hpc]; try rfl)
    have hun : unwritten n s' → unwritten n s := unwritten_of e8 (by rw [hpc]; simp)
    have ⟨m1, m2, m3, m4, m5, m6⟩ := kinds s
    have ba := b_ask
    have bb := b_idle
    obtain ⟨locks, held, rtok, rone, rq, rq1, evs, eone, dl, sd, wt, tone, wq, wq1, wu, wm, uone, d1, d2, dg, df, d3, d4, d5⟩ := h
    clear hs
    constructor
    · rw [f1, hl]; assumption
    all_goals (clear locks hl f1; grind)
  · cases hs

theorem step_put {n p : Nat} {s s' : St} (hp : p < n) (h : Inv n s) (hs : step s p .put = some s') : Inv n s' := by
  simp only [step] at hs
  split at hs
  · rename_i hpc
    injection hs with hs
    have ⟨e1, e2, e3, e4, e5, e6, e7, e8⟩ := facts (s := s) hs
    try simp only [Part.change, St.chg] at e1 e2 e3 e4 e5 e6
    have f1 : s'.hd.locks = _ := congrArg Part.locks e1
    have f2 : s'.hd.st = _ := congrArg Part.st e1
    have f3 : s'.hd.dirty = _ := congrArg Part.dirty e1
    have f4 : s'.hd.writing = _ := congrArg Part.writing e1
    have f5 : s'.hd.sched = _ := congrArg Part.sched e1
    try dsimp only at f1 f2 f3 f4 f5
    clear e1
    have hl := locks_eq (n := n) e8 (by rw [e7, hpc]; try rfl)
    have hun : unwritten n s' → unwritten n s := unwritten_of e8 (by rw [hpc]; simp)
    have ⟨m1, m2, m3, m4, m5, m6⟩ := kinds s
    have ba := b_put
    have bb := b_idle
    obtain ⟨locks, held, rtok, rone, rq, rq1, evs, eone, dl, sd, wt, tone, wq, wq1, wu, wm, uone, d1, d2, dg, df, d3, d4, d5⟩ := h
    clear hs
    constructor
    · rw [f1, hl]; assumption
    all_goals (clear locks hl f1; grind)
  · cases hs

theorem step_write {n p d : Nat} {s s' : St} (hp : p < n) (h : Inv n s) (hs : step s p (.write d) = some s') : Inv n s' := by
  simp only [step] at hs
  split at hs
  · rename_i w hpc
    injection hs with hs
    have ⟨e1, e2, e3, e4, e5, e6, e7, e8⟩ := facts (s := s) hs
    try simp only [Part.change, St.chg] at e1 e2 e3 e4 e5 e6
    have f1 : s'.hd.locks = _ := congrArg Part.locks e1
    have f2 : s'.hd.st = _ := congrArg Part.st e1
    have f3 : s'.hd.dirty = _ := congrArg Part.dirty e1
    have f4 : s'.hd.writing = _ := congrArg Part.writing e1
    have f5 : s'.hd.sched = _ := congrArg Part.sched e1
    try dsimp only at f1 f2 f3 f4 f5
    clear e1
    have hl := locks_eq (n := n) e8 (by rw [e7, hpc]; try rfl)
    have hun : ¬ unwritten n s' := fun hu => hu p hp e7
    have ⟨m1, m2, m3, m4, m5, m6⟩ := kinds s
    have ba := b_held w
    have bb := b_held true
    obtain ⟨locks, held, rtok, rone, rq, rq1, evs, eone, dl, sd, wt, tone, wq, wq1, wu, wm, uone, d1, d2, dg, df, d3, d4, d5⟩ := h
    clear hs
    constructor
    · rw [f1, hl]; assumption
    all_goals (clear locks hl f1; grind)
  · cases hs

theorem step_unlock {n p : Nat} {s s' : St} (hp : p < n) (h : Inv n s) (hs : step s p .unlock = some s') : Inv n s' := by
  simp only [step] at hs
  split at hs
  · rename_i w hpc
    cases w with
    | false =>
      injection hs with hs
      have ⟨e1, e2, e3, e4, e5, e6, e7, e8⟩ := facts (s := s) hs
      try simp only [Part.change, St.chg] at e1 e2 e3 e4 e5 e6
      have f1 : s'.hd.locks = _ := congrArg Part.locks e1
      have f2 : s'.hd.st = _ := congrArg Part.st e1
      have f3 : s'.hd.dirty = _ := congrArg Part.dirty e1
      have f4 : s'.hd.writing = _ := congrArg Part.writing e1
      have f5 : s'.hd.sched = _ := congrArg Part.sched e1
      try dsimp only at f1 f2 f3 f4 f5
      clear e1
      have hl : count (fun q => (s.pc q).isHeld) n = count (fun q => (s'.pc q).isHeld) n + 1 :=
        count_add hp (by rw [e7]; rfl) (by rw [hpc]; rfl) (fun v hv => by rw [e8 v hv])
      have hun : unwritten n s' → unwritten n s := unwritten_of e8 (by rw [hpc]; simp)
      have ⟨m1, m2, m3, m4, m5, m6⟩ := kinds s
      have ba := b_held false
      have bb := b_idle
      obtain ⟨locks, held, rtok, rone, rq, rq1, evs, eone, dl, sd, wt, tone, wq, wq1, wu, wm, uone, d1, d2, dg, df, d3, d4, d5⟩ := h
      clear hs
      constructor
      · omega
      all_goals (clear locks hl f1; grind)
    | true =>
      injection hs with hs
      have ⟨e1, e2, e3, e4, e5, e6, e7, e8⟩ := facts (s := s) hs
      try simp only [Part.change, St.chg] at e1 e2 e3 e4 e5 e6
      have f1 : s'.hd.locks = _ := congrArg Part.locks e1
      have f2 : s'.hd.st = _ := congrArg Part.st e1
      have f3 : s'.hd.dirty = _ := congrArg Part.dirty e1
      have f4 : s'.hd.writing = _ := congrArg Part.writing e1
      have f5 : s'.hd.sched = _ := congrArg Part.sched e1
      try dsimp only at f1 f2 f3 f4 f5
      clear e1
      have hl : count (fun q => (s.pc q).isHeld) n = count (fun q => (s'.pc q).isHeld) n + 1 :=
        count_add hp (by rw [e7]; rfl) (by rw [hpc]; rfl) (fun v hv => by rw [e8 v hv])
      have ⟨m1, m2, m3, m4, m5, m6⟩ := kinds s
      have ba := b_held true
      have bb := b_idle
      obtain ⟨locks, held, rtok, rone, rq, rq1, evs, eone, dl, sd, wt, tone, wq, wq1, wu, wm, uone, d1, d2, dg, df, d3, d4, d5⟩ := h
      clear hs
      constructor
      · omega
      all_goals (clear locks hl f1; grind)
  · cases hs

theorem step_sched {n p : Nat} {s s' : St} (hp : p < n) (h : Inv n s) (hs : step s p .sched = some s') : Inv n s' := by
  simp only [step] at hs
  split at hs
  · rename_i hpc
    split at hs
    · rename_i hd
      simp only [Bool.and_eq_true, Bool.not_eq_true'] at hd
      injection hs with hs
      have ⟨e1, e2, e3, e4, e5, e6, e7, e8⟩ := facts (s := s) hs
      try simp only [Part.change, St.chg] at e1 e2 e3 e4 e5 e6
      have f1 : s'.hd.locks = _ := congrArg Part.locks e1
      have f2 : s'.hd.st = _ := congrArg Part.st e1
      have f3 : s'.hd.dirty = _ := congrArg Part.dirty e1
      have f4 : s'.hd.writing = _ := congrArg Part.writing e1
      have f5 : s'.hd.sched = _ := congrArg Part.sched e1
      try dsimp only at f1 f2 f3 f4 f5
      clear e1
      have hl := locks_eq (n := n) e8 (by rw [e7, hpc]; try rfl)
      have hun : unwritten n s' → unwritten n s := unwritten_of e8 (by rw [hpc]; simp)
      have ⟨m1, m2, m3, m4, m5, m6⟩ := kinds s
      have ba := b_idle
      have bb := b_put
      obtain ⟨locks, held, rtok, rone, rq, rq1, evs, eone, dl, sd, wt, tone, wq, wq1, wu, wm, uone, d1, d2, dg, df, d3, d4, d5⟩ := h
      clear hs
      constructor
      · rw [f1, hl]; assumption
      all_goals (clear locks hl f1; grind)
    · injection hs with hs; subst hs; exact h
  · cases hs

theorem step_pickR {n p : Nat} {s s' : St} (hp : p < n) (h : Inv n s) (hs : step s p .pickR = some s') : Inv n s' := by
  simp only [step] at hs
  split at hs
  · rename_i hc
    have hpc := hc.1
    have hq := hc.2
    injection hs with hs
    have ⟨e1, e2, e3, e4, e5, e6, e7, e8⟩ := facts (s := s) hs
    try simp only [Part.change, St.chg] at e1 e2 e3 e4 e5 e6
    have f1 : s'.hd.locks = _ := congrArg Part.locks e1
    have f2 : s'.hd.st = _ := congrArg Part.st e1
    have f3 : s'.hd.dirty = _ := congrArg Part.dirty e1
    have f4 : s'.hd.writing = _ := congrArg Part.writing e1
    have f5 : s'.hd.sched = _ := congrArg Part.sched e1
    try dsimp only at f1 f2 f3 f4 f5
    clear e1
    have hl := locks_eq (n := n) e8 (by rw [e7, hpc]; try rfl)
    have hun : unwritten n s' → unwritten n s := unwritten_of e8 (by rw [hpc]; simp)
    have ⟨m1, m2, m3, m4, m5, m6⟩ := kinds s
    have ba := b_idle
    have bb := b_rd
    obtain ⟨locks, held, rtok, rone, rq, rq1, evs, eone, dl, sd, wt, tone, wq, wq1, wu, wm, uone, d1, d2, dg, df, d3, d4, d5⟩ := h
    clear hs
    constructor
    · rw [f1, hl]; assumption
    all_goals (clear locks hl f1; grind)
  · cases hs

theorem step_pickW {n p : Nat} {s s' : St} (hp : p < n) (h : Inv n s) (hs : step s p .pickW = some s') : Inv n s' := by
  simp only [step] at hs
  split at hs
  · rename_i hc
    have hpc := hc.1
    have hq := hc.2
    injection hs with hs
    have ⟨e1, e2, e3, e4, e5, e6, e7, e8⟩ := facts (s := s) hs
    try simp only [Part.change, St.chg] at e1 e2 e3 e4 e5 e6
    have f1 : s'.hd.locks = _ := congrArg Part.locks e1
    have f2 : s'.hd.st = _ := congrArg Part.st e1
    have f3 : s'.hd.dirty = _ := congrArg Part.dirty e1
    have f4 : s'.hd.writing = _ := congrArg Part.writing e1
    have f5 : s'.hd.sched = _ := congrArg Part.sched e1
    try dsimp only at f1 f2 f3 f4 f5
    clear e1
    have hl := locks_eq (n := n) e8 (by rw [e7, hpc]; try rfl)
    have hun : unwritten n s' → unwritten n s := unwritten_of e8 (by rw [hpc]; simp)
    have ⟨m1, m2, m3, m4, m5, m6⟩ := kinds s
    have ba := b_idle
    have bb := b_wrf
    obtain ⟨locks, held, rtok, rone, rq, rq1, evs, eone, dl, sd, wt, tone, wq, wq1, wu, wm, uone, d1, d2, dg, df, d3, d4, d5⟩ := h
    clear hs
    constructor
    · rw [f1, hl]; assumption
    all_goals (clear locks hl f1; grind)
  · cases hs

theorem step_err {n p : Nat} {s s' : St} (hp : p < n) (h : Inv n s) (hs : step s p .err = some s') : Inv n s' := by
  simp only [step] at hs
  split at hs
  · rename_i hpc
    injection hs with hs
    have ⟨e1, e2, e3, e4, e5, e6, e7, e8⟩ := facts (s := s) hs
    try simp only [Part.change, St.chg] at e1 e2 e3 e4 e5 e6
    have f1 : s'.hd.locks = _ := congrArg Part.locks e1
    have f2 : s'.hd.st = _ := congrArg Part.st e1
    have f3 : s'.hd.dirty = _ := congrArg Part.dirty e1
    have f4 : s'.hd.writing = _ := congrArg Part.writing e1
    have f5 : s'.hd.sched = _ := congrArg Part.sched e1
    try dsimp only at f1 f2 f3 f4 f5
    clear e1
    have hl := locks_eq (n := n) e8 (by rw [e7, hpc]; try rfl)
    have hun : unwritten n s' → unwritten n s := unwritten_of e8 (by rw [hpc]; simp)
    have ⟨m1, m2, m3, m4, m5, m6⟩ := kinds s
    have ba := b_up
    have bb := b_wrt
    obtain ⟨locks, held, rtok, rone, rq, rq1, evs, eone, dl, sd, wt, tone, wq, wq1, wu, wm, uone, d1, d2, dg, df, d3, d4, d5⟩ := h
    clear hs
    constructor
    · rw [f1, hl]; assumption
    all_goals (clear locks hl f1; grind)
  · rename_i c hpc
    injection hs with hs
    have ⟨e1, e2, e3, e4, e5, e6, e7, e8⟩ := facts (s := s) hs
    try simp only [Part.change, St.chg] at e1 e2 e3 e4 e5 e6
    have f1 : s'.hd.locks = _ := congrArg Part.locks e1
    have f2 : s'.hd.st = _ := congrArg Part.st e1
    have f3 : s'.hd.dirty = _ := congrArg Part.dirty e1
    have f4 : s'.hd.writing = _ := congrArg Part.writing e1
    have f5 : s'.hd.sched = _ := congrArg Part.sched e1
    try dsimp only at f1 f2 f3 f4 f5
    clear e1
    have hl := locks_eq (n := n) e8 (by rw [e7, hpc]; try rfl)
    have hun : unwritten n s' → unwritten n s := unwritten_of e8 (by rw [hpc]; simp)
    have ⟨m1, m2, m3, m4, m5, m6⟩ := kinds s
    have ba := b_sent c
    have bb := b_wrt
    obtain ⟨locks, held, rtok, rone, rq, rq1, evs, eone, dl, sd, wt, tone, wq, wq1, wu, wm, uone, d1, d2, dg, df, d3, d4, d5⟩ := h
    clear hs
    constructor
    · rw [f1, hl]; assumption
    all_goals (clear locks hl f1; grind)
  · cases hs

theorem step_evict {n p : Nat} {s s' : St} (hp : p < n) (h : Inv n s) (hf : s.hd.evictable = true → s.cur ≠ 0)
    (hs : step s p .evict = some s') : Inv n s' := by
  simp only [step] at hs
  split at hs
  · rename_i hpc
    split at hs
    · rename_i hev
      have hcur := hf hev
      simp only [Part.evictable, Bool.and_eq_true, beq_iff_eq, Bool.not_eq_true'] at hev
      have hno : ∀ q, q < n → (s.pc q).isHeld = false := count_zero (by rw [← h.locks]; exact hev.1.1.1.2)
      have huw : unwritten n s := by
        intro q hq hc
        have := hno q hq
        rw [hc] at this
        cases this
      injection hs with hs
      have ⟨e1, e2, e3, e4, e5, e6, e7, e8⟩ := facts (s := s) hs
      try simp only [Part.change, St.chg] at e1 e2 e3 e4 e5 e6
      have f1 : s'.hd.locks = _ := congrArg Part.locks e1
      have f2 : s'.hd.st = _ := congrArg Part.st e1
      have f3 : s'.hd.dirty = _ := congrArg Part.dirty e1
      have f4 : s'.hd.writing = _ := congrArg Part.writing e1
      have f5 : s'.hd.sched = _ := congrArg Part.sched e1
      try dsimp only at f1 f2 f3 f4 f5
      clear e1
      have hl := locks_eq (n := n) e8 (by rw [e7, hpc]; try rfl)
      have hun : unwritten n s' → unwritten n s := unwritten_of e8 (by rw [hpc]; simp)
      have ⟨m1, m2, m3, m4, m5, m6⟩ := kinds s
      have ba := b_idle
      have bb := b_ev
      obtain ⟨locks, held, rtok, rone, rq, rq1, evs, eone, dl, sd, wt, tone, wq, wq1, wu, wm, uone, d1, d2, dg, df, d3, d4, d5⟩ := h
      clear hs
      constructor
      · rw [f1, hl]; assumption
      all_goals (clear locks hl f1; grind)
    · injection hs with hs
      subst hs
      exact ⟨h.locks, h.held, h.rtok, h.rone, h.rq, h.rq1, h.evs, h.eone, h.dl, h.sd, h.wt, h.tone, h.wq, h.wq1, h.wu, h.wm,
        h.uone, h.d1, h.d2, h.dg, h.df, h.d3, h.d4, h.d5⟩
  · cases hs

set_option maxHeartbeats 2000000 in
theorem step_die {n p : Nat} {s s' : St} (hp : p < n) (h : Inv n s) (hf : s.pc p ≠ .rdone ∧ s.pc p ≠ .wdone)
    (hs : step s p .die = some s') : Inv n s' := by
  simp only [step, die] at hs
  split at hs
  · rename_i hpc
    injection hs with hs
    have ⟨e1, e2, e3, e4, e5, e6, e7, e8⟩ := facts (s := s) hs
    try simp only [Part.change, St.chg] at e1 e2 e3 e4 e5 e6
    have f1 : s'.hd.locks = _ := congrArg Part.locks e1
    have f2 : s'.hd.st = _ := congrArg Part.st e1
    have f3 : s'.hd.dirty = _ := congrArg Part.dirty e1
    have f4 : s'.hd.writing = _ := congrArg Part.writing e1
    have f5 : s'.hd.sched = _ := congrArg Part.sched e1
    try dsimp only at f1 f2 f3 f4 f5
    clear e1
    have hl := locks_eq (n := n) e8 (by rw [e7, hpc]; try rfl)
    have hun : unwritten n s' → unwritten n s := unwritten_of e8 (by rw [hpc]; simp)
    have ⟨m1, m2, m3, m4, m5, m6⟩ := kinds s
    have ba := b_rd
    have bb := b_rd
    obtain ⟨locks, held, rtok, rone, rq, rq1, evs, eone, dl, sd, wt, tone, wq, wq1, wu, wm, uone, d1, d2, dg, df, d3, d4, d5⟩ := h
    clear hs
    constructor
    · rw [f1, hl]; assumption
    all_goals (clear locks hl f1; grind)
  · rename_i c hpc
    injection hs with hs
    have ⟨e1, e2, e3, e4, e5, e6, e7, e8⟩ := facts (s := s) hs
    try simp only [Part.change, St.chg] at e1 e2 e3 e4 e5 e6
    have f1 : s'.hd.locks = _ := congrArg Part.locks e1
    have f2 : s'.hd.st = _ := congrArg Part.st e1
    have f3 : s'.hd.dirty = _ := congrArg Part.dirty e1
    have f4 : s'.hd.writing = _ := congrArg Part.writing e1
    have f5 : s'.hd.sched = _ := congrArg Part.sched e1
    try dsimp only at f1 f2 f3 f4 f5
    clear e1
    have hl := locks_eq (n := n) e8 (by rw [e7, hpc]; try rfl)
    have hun : unwritten n s' → unwritten n s := unwritten_of e8 (by rw [hpc]; simp)
    have ⟨m1, m2, m3, m4, m5, m6⟩ := kinds s
    have ba := b_got c
    have bb := b_rd
    obtain ⟨locks, held, rtok, rone, rq, rq1, evs, eone, dl, sd, wt, tone, wq, wq1, wu, wm, uone, d1, d2, dg, df, d3, d4, d5⟩ := h
    clear hs
    constructor
    · rw [f1, hl]; assumption
    all_goals (clear locks hl f1; grind)
  · rename_i hpc
    injection hs with hs
    have ⟨e1, e2, e3, e4, e5, e6, e7, e8⟩ := facts (s := s) hs
    try simp only [Part.change, St.chg] at e1 e2 e3 e4 e5 e6
    have f1 : s'.hd.locks = _ := congrArg Part.locks e1
    have f2 : s'.hd.st = _ := congrArg Part.st e1
    have f3 : s'.hd.dirty = _ := congrArg Part.dirty e1
    have f4 : s'.hd.writing = _ := congrArg Part.writing e1
    have f5 : s'.hd.sched = _ := congrArg Part.sched e1
    try dsimp only at f1 f2 f3 f4 f5
    clear e1
    have hl := locks_eq (n := n) e8 (by rw [e7, hpc]; try rfl)
    have hun : unwritten n s' → unwritten n s := unwritten_of e8 (by rw [hpc]; simp)
    have ⟨m1, m2, m3, m4, m5, m6⟩ := kinds s
    have ba := b_fill
    have bb := b_rd
    obtain ⟨locks, held, rtok, rone, rq, rq1, evs, eone, dl, sd, wt, tone, wq, wq1, wu, wm, uone, d1, d2, dg, df, d3, d4, d5⟩ := h
    clear hs
    constructor
    · rw [f1, hl]; assumption
    all_goals (clear locks hl f1; grind)
  · rename_i hpc
    injection hs with hs
    have ⟨e1, e2, e3, e4, e5, e6, e7, e8⟩ := facts (s := s) hs
    try simp only [Part.change, St.chg] at e1 e2 e3 e4 e5 e6
    have f1 : s'.hd.locks = _ := congrArg Part.locks e1
    have f2 : s'.hd.st = _ := congrArg Part.st e1
    have f3 : s'.hd.dirty = _ := congrArg Part.dirty e1
    have f4 : s'.hd.writing = _ := congrArg Part.writing e1
    have f5 : s'.hd.sched = _ := congrArg Part.sched e1
    try dsimp only at f1 f2 f3 f4 f5
    clear e1
    have hl := locks_eq (n := n) e8 (by rw [e7, hpc]; try rfl)
    have hun : unwritten n s' → unwritten n s := unwritten_of e8 (by rw [hpc]; simp)
    have ⟨m1, m2, m3, m4, m5, m6⟩ := kinds s
    have ba := b_claim
    have bb := b_rd
    obtain ⟨locks, held, rtok, rone, rq, rq1, evs, eone, dl, sd, wt, tone, wq, wq1, wu, wm, uone, d1, d2, dg, df, d3, d4, d5⟩ := h
    clear hs
    constructor
    · rw [f1, hl]; assumption
    all_goals (clear locks hl f1; grind)
  · rename_i hpc; exact absurd hpc hf.1
  · injection hs with hs; subst hs; exact h
  · rename_i hpc
    injection hs with hs
    have ⟨e1, e2, e3, e4, e5, e6, e7, e8⟩ := facts (s := s) hs
    try simp only [Part.change, St.chg] at e1 e2 e3 e4 e5 e6
    have f1 : s'.hd.locks = _ := congrArg Part.locks e1
    have f2 : s'.hd.st = _ := congrArg Part.st e1
    have f3 : s'.hd.dirty = _ := congrArg Part.dirty e1
    have f4 : s'.hd.writing = _ := congrArg Part.writing e1
    have f5 : s'.hd.sched = _ := congrArg Part.sched e1
    try dsimp only at f1 f2 f3 f4 f5
    clear e1
    have hl := locks_eq (n := n) e8 (by rw [e7, hpc]; try rfl)
    have hun : unwritten n s' → unwritten n s := unwritten_of e8 (by rw [hpc]; simp)
    have ⟨m1, m2, m3, m4, m5, m6⟩ := kinds s
    have ba := b_up
    have bb := b_wrt
    obtain ⟨locks, held, rtok, rone, rq, rq1, evs, eone, dl, sd, wt, tone, wq, wq1, wu, wm, uone, d1, d2, dg, df, d3, d4, d5⟩ := h
    clear hs
    constructor
    · rw [f1, hl]; assumption
    all_goals (clear locks hl f1; grind)
  · rename_i c hpc
    injection hs with hs
    have ⟨e1, e2, e3, e4, e5, e6, e7, e8⟩ := facts (s := s) hs
    try simp only [Part.change, St.chg] at e1 e2 e3 e4 e5 e6
    have f1 : s'.hd.locks = _ := congrArg Part.locks e1
    have f2 : s'.hd.st = _ := congrArg Part.st e1
    have f3 : s'.hd.dirty = _ := congrArg Part.dirty e1
    have f4 : s'.hd.writing = _ := congrArg Part.writing e1
    have f5 : s'.hd.sched = _ := congrArg Part.sched e1
    try dsimp only at f1 f2 f3 f4 f5
    clear e1
    have hl := locks_eq (n := n) e8 (by rw [e7, hpc]; try rfl)
    have hun : unwritten n s' → unwritten n s := unwritten_of e8 (by rw [hpc]; simp)
    have ⟨m1, m2, m3, m4, m5, m6⟩ := kinds s
    have ba := b_sent c
    have bb := b_wrt
    obtain ⟨locks, held, rtok, rone, rq, rq1, evs, eone, dl, sd, wt, tone, wq, wq1, wu, wm, uone, d1, d2, dg, df, d3, d4, d5⟩ := h
    clear hs
    constructor
    · rw [f1, hl]; assumption
    all_goals (clear locks hl f1; grind)
  · rename_i hpc
    injection hs with hs
    have ⟨e1, e2, e3, e4, e5, e6, e7, e8⟩ := facts (s := s) hs
    try simp only [Part.change, St.chg] at e1 e2 e3 e4 e5 e6
    have f1 : s'.hd.locks = _ := congrArg Part.locks e1
    have f2 : s'.hd.st = _ := congrArg Part.st e1
    have f3 : s'.hd.dirty = _ := congrArg Part.dirty e1
    have f4 : s'.hd.writing = _ := congrArg Part.writing e1
    have f5 : s'.hd.sched = _ := congrArg Part.sched e1
    try dsimp only at f1 f2 f3 f4 f5
    clear e1
    have hl := locks_eq (n := n) e8 (by rw [e7, hpc]; try rfl)
    have hun : unwritten n s' → unwritten n s := unwritten_of e8 (by rw [hpc]; simp)
    have ⟨m1, m2, m3, m4, m5, m6⟩ := kinds s
    have ba := b_ok
    have bb := b_wrt
    obtain ⟨locks, held, rtok, rone, rq, rq1, evs, eone, dl, sd, wt, tone, wq, wq1, wu, wm, uone, d1, d2, dg, df, d3, d4, d5⟩ := h
    clear hs
    constructor
    · rw [f1, hl]; assumption
    all_goals (clear locks hl f1; grind)
  · rename_i hpc; exact absurd hpc hf.2
  · cases hs

set_option maxHeartbeats 2000000 in
theorem step_go {n p : Nat} {s s' : St} (hp : p < n) (h : Inv n s)
    (hf : ∀ b, s.pc p = .wr b → (∀ q, q < n → q ≠ p → (s.pc q).isUp = false) ∧
      (b = true → s.qw = 0 ∧ ∀ q, q < n → (s.pc q).isTask = false))
    (hs : step s p .go = some s') : Inv n s' := by
  simp only [step, go] at hs
  split at hs
  · rename_i hpc
    split at hs
    · rename_i c hc
      injection hs with hs
      have ⟨e1, e2, e3, e4, e5, e6, e7, e8⟩ := facts (s := s) hs
      try simp only [Part.change, St.chg] at e1 e2 e3 e4 e5 e6
      have f1 : s'.hd.locks = _ := congrArg Part.locks e1
      have f2 : s'.hd.st = _ := congrArg Part.st e1
      have f3 : s'.hd.dirty = _ := congrArg Part.dirty e1
      have f4 : s'.hd.writing = _ := congrArg Part.writing e1
      have f5 : s'.hd.sched = _ := congrArg Part.sched e1
      try dsimp only at f1 f2 f3 f4 f5
      clear e1
      have hl := locks_eq (n := n) e8 (by rw [e7, hpc]; try rfl)
      have hun : unwritten n s' → unwritten n s := unwritten_of e8 (by rw [hpc]; simp)
      have ⟨m1, m2, m3, m4, m5, m6⟩ := kinds s
      have ba := b_rd
      have bb := b_got c
      obtain ⟨locks, held, rtok, rone, rq, rq1, evs, eone, dl, sd, wt, tone, wq, wq1, wu, wm, uone, d1, d2, dg, df, d3, d4, d5⟩ := h
      clear hs
      constructor
      · rw [f1, hl]; assumption
      all_goals (clear locks hl f1; grind)
    · injection hs with hs; subst hs; exact h
  · rename_i c hpc
    injection hs with hs
    have ⟨e1, e2, e3, e4, e5, e6, e7, e8⟩ := facts (s := s) hs
    try simp only [Part.change, St.chg] at e1 e2 e3 e4 e5 e6
    have f1 : s'.hd.locks = _ := congrArg Part.locks e1
    have f2 : s'.hd.st = _ := congrArg Part.st e1
    have f3 : s'.hd.dirty = _ := congrArg Part.dirty e1
    have f4 : s'.hd.writing = _ := congrArg Part.writing e1
    have f5 : s'.hd.sched = _ := congrArg Part.sched e1
    try dsimp only at f1 f2 f3 f4 f5
    clear e1
    have hl := locks_eq (n := n) e8 (by rw [e7, hpc]; try rfl)
    have hun : unwritten n s' → unwritten n s := unwritten_of e8 (by rw [hpc]; simp)
    have ⟨m1, m2, m3, m4, m5, m6⟩ := kinds s
    have ba := b_got c
    have bb := b_fill
    obtain ⟨locks, held, rtok, rone, rq, rq1, evs, eone, dl, sd, wt, tone, wq, wq1, wu, wm, uone, d1, d2, dg, df, d3, d4, d5⟩ := h
    clear hs
    constructor
    · rw [f1, hl]; assumption
    all_goals (clear locks hl f1; grind)
  · rename_i hpc
    have hst := h.rtok p hp (by rw [hpc]; rfl)
    rw [hst] at hs
    dsimp only at hs
    injection hs with hs
    have ⟨e1, e2, e3, e4, e5, e6, e7, e8⟩ := facts (s := s) hs
    try simp only [Part.change, St.chg] at e1 e2 e3 e4 e5 e6
    have f1 : s'.hd.locks = _ := congrArg Part.locks e1
    have f2 : s'.hd.st = _ := congrArg Part.st e1
    have f3 : s'.hd.dirty = _ := congrArg Part.dirty e1
    have f4 : s'.hd.writing = _ := congrArg Part.writing e1
    have f5 : s'.hd.sched = _ := congrArg Part.sched e1
    try dsimp only at f1 f2 f3 f4 f5
    clear e1
    have hl := locks_eq (n := n) e8 (by rw [e7, hpc]; try rfl)
    have hun : unwritten n s' → unwritten n s := unwritten_of e8 (by rw [hpc]; simp)
    have ⟨m1, m2, m3, m4, m5, m6⟩ := kinds s
    have ba := b_fill
    have bb := b_claim
    obtain ⟨locks, held, rtok, rone, rq, rq1, evs, eone, dl, sd, wt, tone, wq, wq1, wu, wm, uone, d1, d2, dg, df, d3, d4, d5⟩ := h
    clear hs
    constructor
    · rw [f1, hl]; assumption
    all_goals (clear locks hl f1; grind)
  · rename_i hpc
    have hst := h.rtok p hp (by rw [hpc]; rfl)
    injection hs with hs
    have ⟨e1, e2, e3, e4, e5, e6, e7, e8⟩ := facts (s := s) hs
    try simp only [Part.change, St.chg] at e1 e2 e3 e4 e5 e6
    have f1 : s'.hd.locks = _ := congrArg Part.locks e1
    have f2 : s'.hd.st = _ := congrArg Part.st e1
    have f3 : s'.hd.dirty = _ := congrArg Part.dirty e1
    have f4 : s'.hd.writing = _ := congrArg Part.writing e1
    have f5 : s'.hd.sched = _ := congrArg Part.sched e1
    try dsimp only at f1 f2 f3 f4 f5
    clear e1
    have hl := locks_eq (n := n) e8 (by rw [e7, hpc]; try rfl)
    have hun : unwritten n s' → unwritten n s := unwritten_of e8 (by rw [hpc]; simp)
    have ⟨m1, m2, m3, m4, m5, m6⟩ := kinds s
    have ba := b_claim
    have bb := b_rdone
    obtain ⟨locks, held, rtok, rone, rq, rq1, evs, eone, dl, sd, wt, tone, wq, wq1, wu, wm, uone, d1, d2, dg, df, d3, d4, d5⟩ := h
    clear hs
    constructor
    · rw [f1, hl]; assumption
    all_goals (clear locks hl f1; grind)
  · rename_i hpc
    injection hs with hs
    have ⟨e1, e2, e3, e4, e5, e6, e7, e8⟩ := facts (s := s) hs
    try simp only [Part.change, St.chg] at e1 e2 e3 e4 e5 e6
    have f1 : s'.hd.locks = _ := congrArg Part.locks e1
    have f2 : s'.hd.st = _ := congrArg Part.st e1
    have f3 : s'.hd.dirty = _ := congrArg Part.dirty e1
    have f4 : s'.hd.writing = _ := congrArg Part.writing e1
    have f5 : s'.hd.sched = _ := congrArg Part.sched e1
    try dsimp only at f1 f2 f3 f4 f5
    clear e1
    have hl := locks_eq (n := n) e8 (by rw [e7, hpc]; try rfl)
    have hun : unwritten n s' → unwritten n s := unwritten_of e8 (by rw [hpc]; simp)
    have ⟨m1, m2, m3, m4, m5, m6⟩ := kinds s
    have ba := b_rdone
    have bb := b_idle
    obtain ⟨locks, held, rtok, rone, rq, rq1, evs, eone, dl, sd, wt, tone, wq, wq1, wu, wm, uone, d1, d2, dg, df, d3, d4, d5⟩ := h
    clear hs
    constructor
    · rw [f1, hl]; assumption
    all_goals (clear locks hl f1; grind)
  · rename_i b hpc
    have hf := hf b hpc
    cases b with
    | false =>
      injection hs with hs
      have ⟨e1, e2, e3, e4, e5, e6, e7, e8⟩ := facts (s := s) hs
      try simp only [Part.change, St.chg] at e1 e2 e3 e4 e5 e6
      have f1 : s'.hd.locks = _ := congrArg Part.locks e1
      have f2 : s'.hd.st = _ := congrArg Part.st e1
      have f3 : s'.hd.dirty = _ := congrArg Part.dirty e1
      have f4 : s'.hd.writing = _ := congrArg Part.writing e1
      have f5 : s'.hd.sched = _ := congrArg Part.sched e1
      try dsimp only at f1 f2 f3 f4 f5
      clear e1
      have hl := locks_eq (n := n) e8 (by rw [e7, hpc]; try rfl)
      have hun : unwritten n s' → unwritten n s := unwritten_of e8 (by rw [hpc]; simp)
      have ⟨m1, m2, m3, m4, m5, m6⟩ := kinds s
      have ba := b_wrf
      have bb := b_up
      obtain ⟨locks, held, rtok, rone, rq, rq1, evs, eone, dl, sd, wt, tone, wq, wq1, wu, wm, uone, d1, d2, dg, df, d3, d4, d5⟩ := h
      clear hs
      constructor
      · rw [f1, hl]; assumption
      all_goals (clear locks hl f1; grind)
    | true =>
      have hf2 := hf.2 rfl
      injection hs with hs
      have ⟨e1, e2, e3, e4, e5, e6, e7, e8⟩ := facts (s := s) hs
      try simp only [Part.change, St.chg] at e1 e2 e3 e4 e5 e6
      have f1 : s'.hd.locks = _ := congrArg Part.locks e1
      have f2 : s'.hd.st = _ := congrArg Part.st e1
      have f3 : s'.hd.dirty = _ := congrArg Part.dirty e1
      have f4 : s'.hd.writing = _ := congrArg Part.writing e1
      have f5 : s'.hd.sched = _ := congrArg Part.sched e1
      try dsimp only at f1 f2 f3 f4 f5
      clear e1
      have hl := locks_eq (n := n) e8 (by rw [e7, hpc]; try rfl)
      have hun : unwritten n s' → unwritten n s := unwritten_of e8 (by rw [hpc]; simp)
      have ⟨m1, m2, m3, m4, m5, m6⟩ := kinds s
      have ba := b_wrt
      have bb := b_up
      obtain ⟨locks, held, rtok, rone, rq, rq1, evs, eone, dl, sd, wt, tone, wq, wq1, wu, wm, uone, d1, d2, dg, df, d3, d4, d5⟩ := h
      clear hs
      constructor
      · rw [f1, hl]; assumption
      all_goals (clear locks hl f1; grind)
  · rename_i hpc
    injection hs with hs
    have ⟨e1, e2, e3, e4, e5, e6, e7, e8⟩ := facts (s := s) hs
    try simp only [Part.change, St.chg] at e1 e2 e3 e4 e5 e6
    have f1 : s'.hd.locks = _ := congrArg Part.locks e1
    have f2 : s'.hd.st = _ := congrArg Part.st e1
    have f3 : s'.hd.dirty = _ := congrArg Part.dirty e1
    have f4 : s'.hd.writing = _ := congrArg Part.writing e1
    have f5 : s'.hd.sched = _ := congrArg Part.sched e1
    try dsimp only at f1 f2 f3 f4 f5
    clear e1
    have hl := locks_eq (n := n) e8 (by rw [e7, hpc]; try rfl)
    have hun : unwritten n s' → unwritten n s := unwritten_of e8 (by rw [hpc]; simp)
    have ⟨m1, m2, m3, m4, m5, m6⟩ := kinds s
    have ba := b_up
    have bb := b_sent s.loc
    obtain ⟨locks, held, rtok, rone, rq, rq1, evs, eone, dl, sd, wt, tone, wq, wq1, wu, wm, uone, d1, d2, dg, df, d3, d4, d5⟩ := h
    clear hs
    constructor
    · rw [f1, hl]; assumption
    all_goals (clear locks hl f1; grind)
  · rename_i c hpc
    injection hs with hs
    have ⟨e1, e2, e3, e4, e5, e6, e7, e8⟩ := facts (s := s) hs
    try simp only [Part.change, St.chg] at e1 e2 e3 e4 e5 e6
    have f1 : s'.hd.locks = _ := congrArg Part.locks e1
    have f2 : s'.hd.st = _ := congrArg Part.st e1
    have f3 : s'.hd.dirty = _ := congrArg Part.dirty e1
    have f4 : s'.hd.writing = _ := congrArg Part.writing e1
    have f5 : s'.hd.sched = _ := congrArg Part.sched e1
    try dsimp only at f1 f2 f3 f4 f5
    clear e1
    have hl := locks_eq (n := n) e8 (by rw [e7, hpc]; try rfl)
    have hun : unwritten n s' → unwritten n s := unwritten_of e8 (by rw [hpc]; simp)
    have ⟨m1, m2, m3, m4, m5, m6⟩ := kinds s
    have ba := b_sent c
    have bb := b_ok
    obtain ⟨locks, held, rtok, rone, rq, rq1, evs, eone, dl, sd, wt, tone, wq, wq1, wu, wm, uone, d1, d2, dg, df, d3, d4, d5⟩ := h
    clear hs
    constructor
    · rw [f1, hl]; assumption
    all_goals (clear locks hl f1; grind)
  · rename_i hpc
    injection hs with hs
    have ⟨e1, e2, e3, e4, e5, e6, e7, e8⟩ := facts (s := s) hs
    try simp only [Part.change, St.chg] at e1 e2 e3 e4 e5 e6
    have f1 : s'.hd.locks = _ := congrArg Part.locks e1
    have f2 : s'.hd.st = _ := congrArg Part.st e1
    have f3 : s'.hd.dirty = _ := congrArg Part.dirty e1
    have f4 : s'.hd.writing = _ := congrArg Part.writing e1
    have f5 : s'.hd.sched = _ := congrArg Part.sched e1
    try dsimp only at f1 f2 f3 f4 f5
    clear e1
    have hl := locks_eq (n := n) e8 (by rw [e7, hpc]; try rfl)
    have hun : unwritten n s' → unwritten n s := unwritten_of e8 (by rw [hpc]; simp)
    have ⟨m1, m2, m3, m4, m5, m6⟩ := kinds s
    have ba := b_ok
    have bb := b_wdone
    obtain ⟨locks, held, rtok, rone, rq, rq1, evs, eone, dl, sd, wt, tone, wq, wq1, wu, wm, uone, d1, d2, dg, df, d3, d4, d5⟩ := h
    clear hs
    constructor
    · rw [f1, hl]; assumption
    all_goals (clear locks hl f1; grind)
  · rename_i hpc
    injection hs with hs
    have ⟨e1, e2, e3, e4, e5, e6, e7, e8⟩ := facts (s := s) hs
    try simp only [Part.change, St.chg] at e1 e2 e3 e4 e5 e6
    have f1 : s'.hd.locks = _ := congrArg Part.locks e1
    have f2 : s'.hd.st = _ := congrArg Part.st e1
    have f3 : s'.hd.dirty = _ := congrArg Part.dirty e1
    have f4 : s'.hd.writing = _ := congrArg Part.writing e1
    have f5 : s'.hd.sched = _ := congrArg Part.sched e1
    try dsimp only at f1 f2 f3 f4 f5
    clear e1
    have hl := locks_eq (n := n) e8 (by rw [e7, hpc]; try rfl)
    have hun : unwritten n s' → unwritten n s := unwritten_of e8 (by rw [hpc]; simp)
    have ⟨m1, m2, m3, m4, m5, m6⟩ := kinds s
    have ba := b_wdone
    have bb := b_idle
    obtain ⟨locks, held, rtok, rone, rq, rq1, evs, eone, dl, sd, wt, tone, wq, wq1, wu, wm, uone, d1, d2, dg, df, d3, d4, d5⟩ := h
    clear hs
    constructor
    · rw [f1, hl]; assumption
    all_goals (clear locks hl f1; grind)
  · rename_i hpc
    have hst := h.evs p hp (by rw [hpc]; rfl)
    injection hs with hs
    have ⟨e1, e2, e3, e4, e5, e6, e7, e8⟩ := facts (s := s) hs
    try simp only [Part.change, St.chg] at e1 e2 e3 e4 e5 e6
    have f1 : s'.hd.locks = _ := congrArg Part.locks e1
    have f2 : s'.hd.st = _ := congrArg Part.st e1
    have f3 : s'.hd.dirty = _ := congrArg Part.dirty e1
    have f4 : s'.hd.writing = _ := congrArg Part.writing e1
    have f5 : s'.hd.sched = _ := congrArg Part.sched e1
    try dsimp only at f1 f2 f3 f4 f5
    clear e1
    have hl := locks_eq (n := n) e8 (by rw [e7, hpc]; try rfl)
    have hun : unwritten n s' → unwritten n s := unwritten_of e8 (by rw [hpc]; simp)
    have ⟨m1, m2, m3, m4, m5, m6⟩ := kinds s
    have ba := b_ev
    have bb := b_zero
    obtain ⟨locks, held, rtok, rone, rq, rq1, evs, eone, dl, sd, wt, tone, wq, wq1, wu, wm, uone, d1, d2, dg, df, d3, d4, d5⟩ := h
    clear hs
    constructor
    · rw [f1, hl]; assumption
    all_goals (clear locks hl f1; grind)
  · rename_i hpc
    have hst := h.evs p hp (by rw [hpc]; rfl)
    injection hs with hs
    have ⟨e1, e2, e3, e4, e5, e6, e7, e8⟩ := facts (s := s) hs
    try simp only [Part.change, St.chg] at e1 e2 e3 e4 e5 e6
    have f1 : s'.hd.locks = _ := congrArg Part.locks e1
    have f2 : s'.hd.st = _ := congrArg Part.st e1
    have f3 : s'.hd.dirty = _ := congrArg Part.dirty e1
    have f4 : s'.hd.writing = _ := congrArg Part.writing e1
    have f5 : s'.hd.sched = _ := congrArg Part.sched e1
    try dsimp only at f1 f2 f3 f4 f5
    clear e1
    have hl := locks_eq (n := n) e8 (by rw [e7, hpc]; try rfl)
    have hun : unwritten n s' → unwritten n s := unwritten_of e8 (by rw [hpc]; simp)
    have ⟨m1, m2, m3, m4, m5, m6⟩ := kinds s
    have ba := b_zero
    have bb := b_idle
    obtain ⟨locks, held, rtok, rone, rq, rq1, evs, eone, dl, sd, wt, tone, wq, wq1, wu, wm, uone, d1, d2, dg, df, d3, d4, d5⟩ := h
    clear hs
    constructor
    · rw [f1, hl]; assumption
    all_goals (clear locks hl f1; grind)
  · cases hs

theorem step_inv {n p : Nat} {a : Act} {s s' : St} (hp : p < n) (h : Inv n s) (hf : fine n s p a)
    (hs : step s p a = some s') : Inv n s' := by
  obtain ⟨f1, f2, f3⟩ := hf
  cases a with
  | lock => exact step_lock hp h hs
  | ask => exact step_ask hp h hs
  | write c => exact step_write hp h hs
  | unlock => exact step_unlock hp h hs
  | sched => exact step_sched hp h hs
  | put => exact step_put hp h hs
  | pickR => exact step_pickR hp h hs
  | pickW => exact step_pickW hp h hs
  | go => exact step_go hp h (f2 rfl) hs
  | die => exact step_die hp h (f1 rfl) hs
  | err => exact step_err hp h hs
  | evict => exact step_evict hp h (f3 rfl) hs

theorem run_inv {n : Nat} : ∀ (es : List (Nat × Act)) (s s' : St), Inv n s → allFine n s es → run n s es = some s' →
    Inv n s' := by
  intro es
  induction es with
  | nil => intro s s' h _ hr; injection hr with hr; subst hr; exact h
  | cons e es ih =>
    obtain ⟨p, a⟩ := e
    intro s s' h hf hr
    simp only [run] at hr
    split at hr
    · rename_i hp
      split at hr
      · cases hr
      · rename_i s1 hs1
        exact ih s1 s' (step_inv hp h hf.1 hs1) (hf.2 s1 hs1) hr
    · cases hr

end Verif.S3Parts
