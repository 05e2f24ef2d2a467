import Verif.UndoLog.StepRet

/-!
# Contents of the undo log, in calm runs: invariant
-/

namespace Verif.UndoLog

variable {c : Cfg} {s s' : St}

/-- A write in progress before the file is written: location, length, `memoryUndoLocation`. -/
def Pc.wr : Pc → Option (Nat × Nat × Nat)
  | .wr1 loc vs m => some (loc, vs.length, m)
  | .wr2 loc vs m => some (loc, vs.length, m)
  | .wr3 loc vs m => some (loc, vs.length, m)
  | .wr4 loc vs m _ => some (loc, vs.length, m)
  | .wr5 loc vs m => some (loc, vs.length, m)
  | .wr6 loc vs m => some (loc, vs.length, m)
  | _ => none

/-- The location a writer has reserved. -/
def Pc.wrRes : Pc → Option Nat
  | .wr2 _ _ m => some m
  | .wr3 _ _ m => some m
  | .wr4 _ _ m _ => some m
  | _ => none

/-- The same, once no eviction was being decided. -/
def Pc.wrPin : Pc → Option Nat
  | .wr3 _ _ m => some m
  | .wr4 _ _ m _ => some m
  | _ => none

/-- The same, while the ring is written. -/
def Pc.wrRing : Pc → Option Nat
  | .wr4 _ _ m _ => some m
  | _ => none

/-- A read in progress. -/
def Pc.rd : Pc → Option (Nat × Nat × (Nat → Nat))
  | .rd0 loc n h => some (loc, n, h)
  | .rd1 loc n h _ _ _ => some (loc, n, h)
  | .rd2 loc n h _ => some (loc, n, h)
  | .rd3 loc n h _ _ _ => some (loc, n, h)
  | .rd4 loc n h _ => some (loc, n, h)
  | _ => none

/-- The scan does not go past `m` for what process `q` has reserved. -/
def resOk (um : Option Um) (q m : Nat) : Prop :=
  ∀ u y, um = some u → u.pc.cx = some y → u.pc.resSeen q = true → y ≤ m

/-- `minProcReservedLocation` has been published. -/
def UmPc.past : UmPc → Bool
  | .pub2 _ _ => true
  | .pub3 _ => true
  | .pub4 => true
  | .held => true
  | _ => false

/-- The eviction has not yet waited for process `q`. -/
def EvPc.before (q : Nat) : EvPc → Bool
  | .decided _ _ => true
  | .waits i _ _ => decide (i ≤ q)
  | _ => false

/-- How far the eviction has copied. -/
def EvPc.done : EvPc → Option Nat
  | .copy x _ => some x
  | .finish t => some t
  | _ => none

/-- Where copying is going to begin. -/
def EvPc.start : EvPc → Option Nat
  | .decided r _ => some r
  | .waits _ r _ => some r
  | _ => none

/-- The value `v` of byte `x` was current at some time since it had `h x` values. -/
def acc (hist : Nat → List Nat) (h : Nat → Nat) (x v : Nat) : Prop :=
  v ∈ (hist x).take ((hist x).length - h x + 1)

/-- What holds of process `q` that reads or writes. -/
structure WOk (used written wip minRes : Nat) (um : Option Um) (ev : Option Ev)
    (hist : Nat → List Nat) (q : Nat) (pc : Pc) (res : Option Nat) : Prop where
  wr : ∀ loc len m, pc.wr = some (loc, len, m) →
    loc ≤ m ∧ (m = loc ∨ m ≤ wip) ∧ loc + len ≤ used ∧ m ≤ loc + len
  wr7 : ∀ loc vs m j, pc = .wr7 loc vs m j → (m ≤ written ∨ m = loc) ∧ m ≤ used
  res : ∀ m, pc.wrRes = some m → res = some m
  pin0 : ∀ m u, pc.wrPin = some m → um = some u → u.ev = true →
    resOk um q m ∧ (u.pc.past = true → minRes ≤ m)
  pin1 : ∀ m e r t, pc.wrRing = some m → ev = some e → e.pc = .decided r t → m < t →
    minRes ≤ m ∧ resOk um q m
  ring : ∀ m, pc.wrRing = some m → written ≤ m ∧
    (wip ≤ m ∨ ∃ e, ev = some e ∧ e.pc.before q = true)
  rd : ∀ loc n h, pc.rd = some (loc, n, h) → ∀ x, loc ≤ x → x < loc + n →
    1 ≤ h x ∧ h x ≤ (hist x).length
  rd1 : ∀ loc n h buf w x0, pc = .rd1 loc n h buf w x0 → w ≤ written ∧
    ∀ x, loc ≤ x → x < loc + n → x < x0 → written ≤ x → acc hist h x (buf x)
  rd2 : ∀ loc n h buf, pc = .rd2 loc n h buf →
    ∀ x, loc ≤ x → x < loc + n → written ≤ x → acc hist h x (buf x)
  rd3 : ∀ loc n h buf w x0, pc = .rd3 loc n h buf w x0 → w ≤ written ∧
    ∀ x, loc ≤ x → x < loc + n → x < x0 ∨ w ≤ x → acc hist h x (buf x)
  rd4 : ∀ loc n h buf, pc = .rd4 loc n h buf →
    ∀ x, loc ≤ x → x < loc + n → acc hist h x (buf x)

/-- Contents. -/
structure Data (c : Cfg) (s : St) : Prop where
  ring : ∀ x, s.hist x ≠ [] → s.minRet ≤ x → s.written ≤ x →
    some (s.ring (x % c.size)) = (s.hist x).head?
  file : ∀ x, s.hist x ≠ [] → s.minRet ≤ x → x < s.written → s.file x = (s.hist x).head?
  done : ∀ e z, s.ev = some e → e.pc.done = some z → ∀ x, s.hist x ≠ [] → s.minRet ≤ x →
    s.written ≤ x → x < z → s.file x = (s.hist x).head?
  start : ∀ e r, s.ev = some e → e.pc.start = some r → r ≤ max s.minRet s.written
  used : ∀ x, s.hist x ≠ [] → x < s.used
  full : ∀ r, r ∈ s.recs → ∀ x, r.loc ≤ x → x < r.loc + r.n →
    s.hist x ≠ [] ∨ ∃ q j, q < c.procs ∧ s.pc q = .fill r.loc r.n j ∧ r.loc + j ≤ x
  proc : ∀ q, q < c.procs →
    WOk s.used s.written s.wip s.minRes s.um s.ev s.hist q (s.pc q) (s.res q)
  obs : ∀ p x v vs, .read p x v vs ∈ s.obs → v ∈ vs
  lost : ∀ p, s.pc p ≠ .lost

/-- Contents only grow. -/
def Grow (f g : Nat → List Nat) : Prop := ∀ x, ∃ l, g x = l ++ f x

theorem Grow.refl (f : Nat → List Nat) : Grow f f := fun _ => ⟨[], rfl⟩

theorem Grow.upd {f : Nat → List Nat} {z v : Nat} : Grow f (upd f z (v :: f z)) := by
  intro x
  unfold Verif.UndoLog.upd
  split
  · rename_i e; subst e; exact ⟨[v], rfl⟩
  · exact ⟨[], rfl⟩

theorem Grow.len {f g : Nat → List Nat} (h : Grow f g) (x : Nat) : (f x).length ≤ (g x).length := by
  obtain ⟨l, e⟩ := h x
  rw [e, List.length_append]; omega

theorem acc.grow {f g : Nat → List Nat} {h : Nat → Nat} {x v : Nat} (hg : Grow f g)
    (hh : h x ≤ (f x).length) (ha : acc f h x v) : acc g h x v := by
  obtain ⟨l, e⟩ := hg x
  unfold acc at ha ⊢
  rw [e, List.length_append, List.take_append]
  refine List.mem_append_right _ ?_
  have h1 : l.length + (f x).length - h x + 1 - l.length = (f x).length - h x + 1 := by omega
  rw [h1]
  exact ha

theorem acc.head {f : Nat → List Nat} {h : Nat → Nat} {x v : Nat} (hv : (f x).head? = some v) :
    acc f h x v := by
  unfold acc
  cases e : f x with
  | nil => rw [e] at hv; simp at hv
  | cons a l =>
    rw [e] at hv
    simp at hv
    subst hv
    rw [List.take_succ_cons]
    exact List.mem_cons_self

/-- Shared variables of no concern to the process change. -/
theorem WOk.mono {used used' written wip minRes q : Nat} {um : Option Um} {ev : Option Ev}
    {hist hist' : Nat → List Nat} {pc : Pc} {res : Option Nat}
    (h : WOk used written wip minRes um ev hist q pc res) (hu : used ≤ used')
    (hg : Grow hist hist') : WOk used' written wip minRes um ev hist' q pc res :=
  { wr := fun loc len m e => by
      obtain ⟨h1, h2, h3, h4⟩ := h.wr loc len m e
      exact ⟨h1, h2, by omega, h4⟩
    wr7 := fun loc vs m j e => by
      obtain ⟨h1, h2⟩ := h.wr7 loc vs m j e
      exact ⟨h1, by omega⟩
    res := h.res
    pin0 := h.pin0
    pin1 := h.pin1
    ring := h.ring
    rd := fun loc n f e x h1 h2 => by
      have h3 := h.rd loc n f e x h1 h2
      have h4 := hg.len x
      omega
    rd1 := fun loc n f buf w x0 e =>
      ⟨(h.rd1 loc n f buf w x0 e).1, fun x h1 h2 h3 h4 =>
        ((h.rd1 loc n f buf w x0 e).2 x h1 h2 h3 h4).grow hg
          (h.rd loc n f (by rw [e]; rfl) x h1 h2).2⟩
    rd2 := fun loc n f buf e x h1 h2 h3 =>
      (h.rd2 loc n f buf e x h1 h2 h3).grow hg (h.rd loc n f (by rw [e]; rfl) x h1 h2).2
    rd3 := fun loc n f buf w x0 e =>
      ⟨(h.rd3 loc n f buf w x0 e).1, fun x h1 h2 h3 =>
        ((h.rd3 loc n f buf w x0 e).2 x h1 h2 h3).grow hg
          (h.rd loc n f (by rw [e]; rfl) x h1 h2).2⟩
    rd4 := fun loc n f buf e x h1 h2 =>
      (h.rd4 loc n f buf e x h1 h2).grow hg (h.rd loc n f (by rw [e]; rfl) x h1 h2).2 }

/-- A process that neither reads nor writes. -/
theorem WOk.other {used written wip minRes q : Nat} {um : Option Um} {ev : Option Ev}
    {hist : Nat → List Nat} {pc : Pc} {res : Option Nat} (h1 : pc.wr = none)
    (h2 : ∀ loc vs m j, pc ≠ .wr7 loc vs m j) (h3 : pc.rd = none) :
    WOk used written wip minRes um ev hist q pc res := by
  cases pc <;> first | exact absurd rfl (h2 _ _ _ _) | skip
  all_goals simp_all [Pc.wr, Pc.rd]
  all_goals (constructor <;> simp [Pc.wr, Pc.wrRes, Pc.wrPin, Pc.wrRing, Pc.rd])

/-- A step of process `p` that neither reads nor writes contents. -/
theorem data_one {p : Nat} (h : Data c s) (e1 : s'.ring = s.ring) (e2 : s'.file = s.file)
    (e3 : s'.hist = s.hist) (e4 : s'.written = s.written) (e5 : s'.wip = s.wip)
    (e6 : s'.minRes = s.minRes) (e7 : s'.minRet = s.minRet) (e8 : s'.um = s.um)
    (e9 : s'.ev = s.ev) (hu : s.used ≤ s'.used)
    (hpc : ∀ q, q ≠ p → s'.pc q = s.pc q) (hres : ∀ q, q ≠ p → s'.res q = s.res q)
    (hrec : ∀ r, r ∈ s'.recs → r ∈ s.recs ∨ p < c.procs ∧ s'.pc p = .fill r.loc r.n 0)
    (hfill : ∀ loc n j, s.pc p = .fill loc n j → s'.pc p = .fill loc n j)
    (hob : ∀ q x v vs, .read q x v vs ∈ s'.obs → .read q x v vs ∈ s.obs ∨ v ∈ vs)
    (hlost : s'.pc p ≠ .lost)
    (hp : p < c.procs →
      WOk s'.used s.written s.wip s.minRes s.um s.ev s.hist p (s'.pc p) (s'.res p)) :
    Data c s' :=
  { ring := by rw [e1, e3, e4, e7]; exact h.ring
    file := by rw [e2, e3, e4, e7]; exact h.file
    done := by rw [e2, e3, e4, e7, e9]; exact h.done
    start := by rw [e4, e7, e9]; exact h.start
    used := by rw [e3]; exact fun x hx => Nat.lt_of_lt_of_le (h.used x hx) hu
    full := by
      intro r hr x h1 h2
      rw [e3]
      rcases hrec r hr with hr | ⟨hp, hr⟩
      · rcases h.full r hr x h1 h2 with h3 | ⟨q, j, h3, h4, h5⟩
        · exact .inl h3
        · right
          refine ⟨q, j, h3, ?_, h5⟩
          by_cases e : q = p
          · subst e; exact hfill _ _ _ h4
          · rw [hpc q e]; exact h4
      · exact .inr ⟨p, 0, hp, hr, h1⟩
    proc := by
      intro q hq
      rw [e3, e4, e5, e6, e8, e9]
      by_cases e : q = p
      · subst e; exact hp hq
      · rw [hpc q e, hres q e]; exact (h.proc q hq).mono hu (Grow.refl _)
    obs := by
      intro q x v vs ho
      rcases hob q x v vs ho with h1 | h1
      · exact h.obs q x v vs h1
      · exact h1
    lost := by
      intro q
      by_cases e : q = p
      · subst e; exact hlost
      · rw [hpc q e]; exact h.lost q }

/-- Two locations in the ring that share a byte are the same. -/
theorem ring_inj {x z : Nat} (hs : Sums c s) (h1 : s.written ≤ x) (h2 : x < s.used)
    (h3 : s.written ≤ z) (h4 : z < s.used) (e : x % c.size = z % c.size) : x = z := by
  have h5 := used_fits hs
  have h6 := Nat.div_add_mod x c.size
  have h7 := Nat.div_add_mod z c.size
  have h8 : x / c.size = z / c.size := by
    rcases Nat.lt_trichotomy (x / c.size) (z / c.size) with h | h | h
    · have := Nat.mul_le_mul_left c.size h
      rw [Nat.succ_eq_add_one, Nat.mul_add] at this
      omega
    · exact h
    · have := Nat.mul_le_mul_left c.size h
      rw [Nat.succ_eq_add_one, Nat.mul_add] at this
      omega
  rw [h8] at h6
  omega

/-- A byte is put into the ring. -/
theorem data_ring {p z v : Nat} (hs : Sums c s) (h : Data c s) (hz1 : s.written ≤ z)
    (hz2 : z < s.used) (hz3 : ∀ e y, s.ev = some e → e.pc.done = some y → y ≤ z)
    (e1 : s'.ring = upd s.ring (z % c.size) v) (e2 : s'.file = s.file)
    (e3 : s'.hist = upd s.hist z (v :: s.hist z)) (e4 : s'.written = s.written)
    (e5 : s'.wip = s.wip) (e6 : s'.minRes = s.minRes) (e7 : s'.minRet = s.minRet)
    (e8 : s'.um = s.um) (e9 : s'.ev = s.ev) (hu : s'.used = s.used)
    (hpc : ∀ q, q ≠ p → s'.pc q = s.pc q) (hres : ∀ q, q ≠ p → s'.res q = s.res q)
    (hrec : s'.recs = s.recs)
    (hfill : ∀ loc n j, s.pc p = .fill loc n j →
      (∃ j', s'.pc p = .fill loc n j' ∧ (loc + j' ≤ z ∨ j' ≤ j + 1)) ∨ loc + n ≤ z + 1)
    (hfz : ∀ loc n j, s.pc p = .fill loc n j → z = loc + j)
    (hob : ∀ q x v vs, .read q x v vs ∈ s'.obs → .read q x v vs ∈ s.obs)
    (hlost : s'.pc p ≠ .lost)
    (hp : p < c.procs → WOk s'.used s.written s.wip s.minRes s.um s.ev s.hist p (s'.pc p) (s'.res p)) :
    Data c s' := by
  have hgrow : Grow s.hist s'.hist := by rw [e3]; exact Grow.upd
  have hne : ∀ x, s.hist x ≠ [] → s'.hist x ≠ [] := by
    intro x hx
    obtain ⟨l, e⟩ := hgrow x
    rw [e]; simp [hx]
  exact
  { ring := by
      intro x h1 h2 h3
      rw [e7] at h2
      rw [e4] at h3
      rw [e1, e3]
      by_cases e : x = z
      · subst e; rw [upd_self, upd_self]; rfl
      · rw [e3, upd_ne e] at h1
        rw [upd_ne (fun e' => e (ring_inj hs h3 (h.used x h1) hz1 hz2 e')), upd_ne e]
        exact h.ring x h1 h2 h3
    file := by
      intro x h1 h2 h3
      rw [e7] at h2
      rw [e4] at h3
      rw [e3] at h1 ⊢
      rw [upd_ne (by omega)] at h1 ⊢
      rw [e2]
      exact h.file x h1 h2 h3
    done := by
      intro e y he hy x h1 h2 h3 h4
      rw [e9] at he
      have := hz3 e y he hy
      rw [e7] at h2
      rw [e4] at h3
      rw [e3] at h1 ⊢
      rw [upd_ne (by omega)] at h1 ⊢
      rw [e2]
      exact h.done e y he hy x h1 h2 h3 h4
    start := by rw [e4, e7, e9]; exact h.start
    used := by
      intro x hx
      rw [hu]
      by_cases e : x = z
      · subst e; exact hz2
      · rw [e3, upd_ne e] at hx; exact h.used x hx
    full := by
      intro r hr x h1 h2
      rw [hrec] at hr
      by_cases ez : x = z
      · left; subst ez; rw [e3, upd_self]; simp
      · rcases h.full r hr x h1 h2 with h3 | ⟨q, j, h3, h4, h5⟩
        · exact .inl (hne x h3)
        · by_cases e : q = p
          · subst e
            have h7 := hfz _ _ _ h4
            rcases hfill _ _ _ h4 with ⟨j', h6, h8⟩ | h6
            · right; exact ⟨q, j', h3, h6, by omega⟩
            · omega
          · exact .inr ⟨q, j, h3, by rw [hpc q e]; exact h4, h5⟩
    proc := by
      intro q hq
      rw [e4, e5, e6, e8, e9]
      by_cases e : q = p
      · subst e; exact (hp hq).mono (Nat.le_refl _) hgrow
      · rw [hpc q e, hres q e, hu]; exact (h.proc q hq).mono (Nat.le_refl _) hgrow
    obs := fun q x v vs ho => h.obs q x v vs (hob q x v vs ho)
    lost := by
      intro q
      by_cases e : q = p
      · subst e; exact hlost
      · rw [hpc q e]; exact h.lost q }

/-- A byte is written to the file. -/
theorem data_file {p z v : Nat} (h : Data c s) (hz1 : z < s.written)
    (hz2 : z < s.used) (e1 : s'.ring = s.ring) (e2 : s'.file = upd s.file z (some v))
    (e3 : s'.hist = upd s.hist z (v :: s.hist z)) (e4 : s'.written = s.written)
    (e5 : s'.wip = s.wip) (e6 : s'.minRes = s.minRes) (e7 : s'.minRet = s.minRet)
    (e8 : s'.um = s.um) (e9 : s'.ev = s.ev) (hu : s'.used = s.used)
    (hpc : ∀ q, q ≠ p → s'.pc q = s.pc q) (hres : ∀ q, q ≠ p → s'.res q = s.res q)
    (hrec : s'.recs = s.recs) (hfill : ∀ loc n j, s.pc p ≠ .fill loc n j)
    (hob : s'.obs = s.obs) (hlost : s'.pc p ≠ .lost)
    (hp : p < c.procs → WOk s'.used s.written s.wip s.minRes s.um s.ev s.hist p (s'.pc p) (s'.res p)) :
    Data c s' := by
  have hgrow : Grow s.hist s'.hist := by rw [e3]; exact Grow.upd
  have hne : ∀ x, s.hist x ≠ [] → s'.hist x ≠ [] := by
    intro x hx
    obtain ⟨l, e⟩ := hgrow x
    rw [e]; simp [hx]
  exact
  { ring := by
      intro x h1 h2 h3
      rw [e7] at h2
      rw [e4] at h3
      rw [e3] at h1 ⊢
      rw [upd_ne (by omega)] at h1 ⊢
      rw [e1]
      exact h.ring x h1 h2 h3
    file := by
      intro x h1 h2 h3
      rw [e7] at h2
      rw [e4] at h3
      rw [e2, e3]
      by_cases e : x = z
      · subst e; rw [upd_self, upd_self]; rfl
      · rw [e3, upd_ne e] at h1
        rw [upd_ne e, upd_ne e]
        exact h.file x h1 h2 h3
    done := by
      intro e y he hy x h1 h2 h3 h4
      rw [e9] at he
      rw [e7] at h2
      rw [e4] at h3
      rw [e3] at h1 ⊢
      rw [upd_ne (by omega)] at h1 ⊢
      rw [e2, upd_ne (by omega)]
      exact h.done e y he hy x h1 h2 h3 h4
    start := by rw [e4, e7, e9]; exact h.start
    used := by
      intro x hx
      rw [hu]
      by_cases e : x = z
      · subst e; exact hz2
      · rw [e3, upd_ne e] at hx; exact h.used x hx
    full := by
      intro r hr x h1 h2
      rw [hrec] at hr
      rcases h.full r hr x h1 h2 with h3 | ⟨q, j, h3, h4, h5⟩
      · exact .inl (hne x h3)
      · by_cases e : q = p
        · subst e; exact absurd h4 (hfill _ _ _)
        · exact .inr ⟨q, j, h3, by rw [hpc q e]; exact h4, h5⟩
    proc := by
      intro q hq
      rw [e4, e5, e6, e8, e9]
      by_cases e : q = p
      · subst e; exact (hp hq).mono (Nat.le_refl _) hgrow
      · rw [hpc q e, hres q e, hu]; exact (h.proc q hq).mono (Nat.le_refl _) hgrow
    obs := by rw [hob]; exact h.obs
    lost := by
      intro q
      by_cases e : q = p
      · subst e; exact hlost
      · rw [hpc q e]; exact h.lost q }

end Verif.UndoLog
