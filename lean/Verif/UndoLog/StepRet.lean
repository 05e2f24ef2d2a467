import Verif.UndoLog.StepAll

/-!
# Retained undo, in calm runs
-/

namespace Verif.UndoLog

variable {c : Cfg} {s s' : St}

/-- Has the scan read the location retained by the snapshots of process `q`? -/
def UmPc.srSeen (q : Nat) : UmPc → Bool
  | .res i _ _ _ => decide (q < i)
  | .tr i _ _ _ => decide (q < i)
  | .sr i _ _ _ => decide (q < i)
  | .pub1 _ _ _ => true
  | .pub2 _ _ => true
  | _ => false

/-- The process has published a location for a transaction but not checked it yet. -/
def Pc.unconf : Pc → Bool
  | .get0 _ o => o
  | .get1 _ o _ => o
  | .get2 _ o _ => o
  | .get3 _ o _ => o
  | .get4 _ o _ => o
  | .get5 _ o _ => o
  | _ => false

/-- The location it has published. -/
def Pc.cand : Pc → Option Nat
  | .get3 _ true l => some l
  | .get4 _ true l => some l
  | .get5 _ true l => some l
  | _ => none

/-- The location a scan begun from now on is going to see. -/
def Pc.cand2 : Pc → Option Nat
  | .get4 _ true l => some l
  | .get5 _ true l => some l
  | _ => none

/-- The location a process is about to retain for a snapshot. -/
def Pc.snapR : Pc → Option Nat
  | .snap1 r => some r
  | .snap2 r => some r
  | .snap3 r => some r
  | _ => none

/-- The same, published. -/
def Pc.snapR2 : Pc → Option Nat
  | .snap2 r => some r
  | .snap3 r => some r
  | _ => none

/-- The undo a process reads or writes. -/
def Pc.useLoc : Pc → Option Nat
  | .wr0 l _ => some l
  | .wr1 l _ _ => some l
  | .wr2 l _ _ => some l
  | .wr3 l _ _ => some l
  | .wr4 l _ _ _ => some l
  | .wr5 l _ _ => some l
  | .wr6 l _ _ => some l
  | .wr7 l _ _ _ => some l
  | .rd0 l _ _ => some l
  | .rd1 l _ _ _ _ _ => some l
  | .rd2 l _ _ _ => some l
  | .rd3 l _ _ _ _ _ => some l
  | .rd4 l _ _ _ => some l
  | _ => none

/-- The scan does not go past `t` for a transaction of process `q`. -/
def trOk (um : Option Um) (q t : Nat) : Prop :=
  ∀ u b, um = some u → u.pc.cb = some b → u.pc.trSeen q = true → b ≤ t

/-- The scan does not go past `r` for a snapshot of process `q`. -/
def srOk (um : Option Um) (q r : Nat) : Prop :=
  ∀ u a, um = some u → u.pc.ca = some a → u.pc.srSeen q = true → a ≤ r

/-- What holds of process `q` in calm runs. -/
structure ROk (minTr minRet : Nat) (um : Option Um) (q : Nat) (pc : Pc) (tr sr : Option Nat)
    (sn un : List Nat) : Prop where
  conf : ∀ t, tr = some t → pc.unconf = false → minTr ≤ t ∧ trOk um q t
  cand : ∀ l, pc.cand = some l → tr = some l
  cand2 : ∀ l, pc.cand2 = some l → trOk um q l
  undo : ∀ x, x ∈ un → pc.unconf = false ∧ ∃ t, tr = some t ∧ t ≤ x
  snaps : ∀ r, r ∈ sn → (∃ v, sr = some v ∧ v ≤ r) ∧ minRet ≤ r ∧ srOk um q r
  snapR : ∀ r, pc.snapR = some r → r ≤ minTr
  snapR2 : ∀ r, pc.snapR2 = some r → ∃ v, sr = some v ∧ v ≤ r
  snap3 : ∀ r, pc = .snap3 r → srOk um q r
  use : ∀ l, pc.useLoc = some l → (∃ t, tr = some t ∧ t ≤ l) ∨ ∃ r, r ∈ sn ∧ r ≤ l

/-- What holds in calm runs, of retained undo. -/
structure Ret (c : Cfg) (s : St) : Prop where
  proc : ∀ q, q < c.procs →
    ROk s.minTr s.minRet s.um q (s.pc q) (s.tr q) (s.sr q) (s.snaps q) (s.undo q)
  took : ∀ p r need, .took p r need ∈ s.obs → ∀ x, x ∈ need → r ≤ x

/-- A run is calm as long as no process discards the location retained by its snapshots while it
has some, and no location is handed to a process that has none while the locations of processes
are being read. -/
def calmStep (s : St) : Act → Prop
  | .clearMy p => s.snaps p = []
  | .hand _ p => s.tr p ≠ none ∨ s.um = none
  | _ => True

theorem trOk_none {q t : Nat} : trOk none q t := fun _ _ h => absurd h (by simp)

theorem srOk_none {q t : Nat} : srOk none q t := fun _ _ h => absurd h (by simp)

theorem even_tr (h : countOdd s = false) {q t : Nat} : trOk s.um q t := by
  intro u b h1 h2
  unfold countOdd at h
  rw [h1] at h
  cases hp : u.pc <;> simp_all [UmPc.cb]

theorem even_sr (h : countOdd s = false) {q t : Nat} : srOk s.um q t := by
  intro u b h1 h2
  unfold countOdd at h
  rw [h1] at h
  cases hp : u.pc <;> simp_all [UmPc.ca]

/-- What is retained by a transaction is not truncated. -/
theorem ret_of_conf {q t : Nat} (hm : Marks c s) (h1 : s.minTr ≤ t) (h2 : trOk s.um q t) :
    s.minRet ≤ t := by
  by_cases e : ∃ u b, s.um = some u ∧ u.pc = .pub3 b
  · obtain ⟨u, b, e1, e2⟩ := e
    have h3 := hm.umPub3 u b e1 e2
    have h4 := h2 u b e1 (by rw [e2]; rfl) (by rw [e2]; rfl)
    omega
  · have h3 := hm.retTr (fun u b e1 e2 => e ⟨u, b, e1, e2⟩)
    omega

theorem unconf_use {pc : Pc} {l : Nat} (h : pc.useLoc = some l) : pc.unconf = false := by
  cases pc <;> simp_all [Pc.useLoc, Pc.unconf]

/-- What a process reads or writes is not truncated. -/
theorem ret_use {q l : Nat} (hm : Marks c s) (h : Ret c s) (hq : q < c.procs)
    (hl : (s.pc q).useLoc = some l) : s.minRet ≤ l := by
  have hr := h.proc q hq
  rcases hr.use l hl with ⟨t, h1, h2⟩ | ⟨r, h1, h2⟩
  · obtain ⟨h3, h4⟩ := hr.conf t h1 (unconf_use hl)
    have := ret_of_conf hm h3 h4
    omega
  · have := (hr.snaps r h1).2.1
    omega

/-- A step of process `p` alone. -/
theorem ret_one {p : Nat} (h : Ret c s) (e5 : s'.minTr = s.minTr) (e4 : s'.minRet = s.minRet)
    (e7 : s'.um = s.um)
    (hpc : ∀ q, q ≠ p → s'.pc q = s.pc q) (htr : ∀ q, q ≠ p → s'.tr q = s.tr q)
    (hsr : ∀ q, q ≠ p → s'.sr q = s.sr q) (hsn : ∀ q, q ≠ p → s'.snaps q = s.snaps q)
    (hun : ∀ q, q ≠ p → s'.undo q = s.undo q)
    (hob : ∀ q r need, .took q r need ∈ s'.obs →
      .took q r need ∈ s.obs ∨ ∀ x, x ∈ need → r ≤ x)
    (hp : p < c.procs →
      ROk s.minTr s.minRet s.um p (s'.pc p) (s'.tr p) (s'.sr p) (s'.snaps p) (s'.undo p)) :
    Ret c s' := by
  refine ⟨?_, ?_⟩
  · intro q hq
    rw [e4, e5, e7]
    by_cases e : q = p
    · subst e; exact hp hq
    · rw [hpc q e, htr q e, hsr q e, hsn q e, hun q e]; exact h.proc q hq
  · intro q r need ho
    rcases hob q r need ho with h1 | h1
    · exact h.took q r need h1
    · exact h1

theorem mem_allUndo {x : Nat} : ∀ {n}, x ∈ allUndo s n → ∃ q, q < n ∧ x ∈ s.undo q
  | 0, h => by simp [allUndo] at h
  | n + 1, h => by
    rcases List.mem_append.1 h with h | h
    · exact ⟨n, by omega, h⟩
    · obtain ⟨q, h1, h2⟩ := mem_allUndo h
      exact ⟨q, by omega, h2⟩

/-- The undo of all transactions in progress lies above the location read for a snapshot. -/
theorem all_above {r : Nat} (h : Ret c s) (hr : r ≤ s.minTr) :
    ∀ x, x ∈ allUndo s c.procs → r ≤ x := by
  intro x hx
  obtain ⟨q, hq, h1⟩ := mem_allUndo hx
  have hp := h.proc q hq
  obtain ⟨h2, t, h3, h4⟩ := hp.undo x h1
  have := (hp.conf t h3 h2).1
  omega

theorem took_reads {p loc k : Nat} {f buf : Nat → Nat} {q r : Nat} {need : List Nat} :
    .took q r need ∉ reads s p loc f buf k := by
  induction k with
  | zero => simp [reads]
  | succ k ih => simp [reads, ih]

set_option maxHeartbeats 4000000 in
theorem ret_go {p : Nat} (hi : Inv c s) (h : Ret c s) (hp : p < c.procs) : Ret c (go c s p) := by
  have hpp := hi.base.proc p
  unfold go
  split
  all_goals try exact h
  all_goals rename_i hpc; rw [hpc] at hpp
  all_goals (try unfold attempt)
  all_goals (try split) <;> (try split)
  all_goals try exact h
  all_goals (refine ret_one (p := p) h rfl rfl rfl ?_ ?_ ?_ ?_ ?_ ?_ ?_)
  all_goals first
    | exact fun q hq => rfl
    | exact fun q hq => upd_ne hq
    | exact fun q r need ho => .inl ho
    | (intro q hq; simp only [to, evictStart, upd, if_neg hq]; done)
    | (intro q hq; simp only [to]; split <;> first | rfl | exact upd_ne hq)
    | skip
  all_goals first
    | (intro hp
       have hr := h.proc p hp
       rw [hpc] at hr
       simp only [to, upd_self, evictStart]
       constructor
       all_goals first
         | exact hr.conf | exact hr.cand | exact hr.cand2 | exact hr.undo | exact hr.snaps
         | exact hr.snapR | exact hr.snapR2 | exact hr.snap3 | exact hr.use
         | (cases hr
            simp only [Pc.unconf, Pc.cand, Pc.cand2, Pc.snapR, Pc.snapR2, Pc.useLoc] at *
            grind))
    | skip
  · rename_i hodd
    have he : ∀ t, trOk s.um p t := fun t => even_tr (by simpa using hodd)
    intro _
    have hr := h.proc p hp
    rw [hpc] at hr
    simp only [to, upd_self]
    cases hr
    constructor <;>
      simp only [Pc.unconf, Pc.cand, Pc.cand2, Pc.snapR, Pc.snapR2, Pc.useLoc] at * <;> grind
  · have h1 := hpp.hasTr rfl
    have h2 := hpp.own
    intro _
    have hr := h.proc p hp
    rw [hpc] at hr
    simp only [upd_self]
    cases hr
    constructor <;>
      simp only [Pc.unconf, Pc.cand, Pc.cand2, Pc.snapR, Pc.snapR2, Pc.useLoc] at * <;> grind
  · have h1 := hpp.hasTr rfl
    have h2 := hpp.own
    intro _
    have hr := h.proc p hp
    rw [hpc] at hr
    simp only [upd_self]
    cases hr
    constructor <;>
      simp only [Pc.unconf, Pc.cand, Pc.cand2, Pc.snapR, Pc.snapR2, Pc.useLoc] at * <;> grind
  · rename_i hodd
    have he : ∀ t, srOk s.um p t := fun t => even_sr (by simpa using hodd)
    intro _
    have hr := h.proc p hp
    rw [hpc] at hr
    simp only [to, upd_self]
    cases hr
    constructor <;>
      simp only [Pc.unconf, Pc.cand, Pc.cand2, Pc.snapR, Pc.snapR2, Pc.useLoc] at * <;> grind
  · intro q r need ho
    rcases List.mem_cons.1 ho with ho | ho
    · cases ho
      have hr := h.proc p hp
      rw [hpc] at hr
      exact .inr (all_above h (hr.snapR _ rfl))
    · exact .inl ho
  · intro q r need ho
    rcases List.mem_append.1 ho with ho | ho
    · exact absurd ho took_reads
    · exact .inl ho

theorem lowest_le : ∀ {l : List Nat} {r m : Nat}, lowest l = some m → r ∈ l → m ≤ r
  | x :: xs, r, m, h, hr => by
    simp only [lowest, Option.some.injEq] at h
    rcases List.mem_cons.1 hr with rfl | hr
    · have := @minOpt_le r (lowest xs); omega
    · cases e : lowest xs with
      | none =>
        cases xs with
        | nil => simp at hr
        | cons a b => simp [lowest] at e
      | some y =>
        have h1 := lowest_le e hr
        have := minOpt_le_some (x := x) e
        omega

theorem lowest_none {l : List Nat} (h : lowest l = none) : l = [] := by
  cases l with
  | nil => rfl
  | cons a b => simp [lowest] at h

theorem covers_iff {p loc : Nat} (h : covers s p loc = true) :
    (∃ t, s.tr p = some t ∧ t ≤ loc) ∨ ∃ r, r ∈ s.snaps p ∧ r ≤ loc := by
  unfold covers at h
  cases e : s.tr p with
  | none => rw [e] at h; simp at h; exact .inr h
  | some t =>
    rw [e] at h; simp at h
    rcases h with h | h
    · exact .inl ⟨t, rfl, h⟩
    · exact .inr h

theorem ret_reserve {p k : Nat} (h : Ret c s) : Ret c (reserve s p k) := by
  unfold reserve
  split <;> (try exact h)
  all_goals rename_i hpc
  all_goals (try split) <;> (try split)
  all_goals try exact h
  all_goals (refine ret_one (p := p) h rfl rfl rfl ?_ ?_ ?_ ?_ ?_ ?_ ?_)
  all_goals first
    | exact fun q hq => rfl
    | exact fun q hq => upd_ne hq
    | exact fun q r need ho => .inl ho
    | exact fun q r need ho => .inl (by simpa using ho)
    | skip
  all_goals
    intro hp
    have hr := h.proc p hp
    rw [hpc] at hr
    try simp only [to, upd_self]
    try rw [hpc]
    constructor
    all_goals first
      | exact hr.conf | exact hr.cand | exact hr.cand2 | exact hr.undo | exact hr.snaps
      | exact hr.snapR | exact hr.snapR2 | exact hr.snap3 | exact hr.use
      | (cases hr
         simp only [Pc.unconf, Pc.cand, Pc.cand2, Pc.snapR, Pc.snapR2, Pc.useLoc] at *
         grind)

theorem ret_giveUp {p : Nat} (h : Ret c s) : Ret c (giveUp s p) := by
  unfold giveUp
  split <;> (try exact h)
  all_goals rename_i hpc
  all_goals (try split) <;> (try split)
  all_goals try exact h
  all_goals (refine ret_one (p := p) h rfl rfl rfl ?_ ?_ ?_ ?_ ?_ ?_ ?_)
  all_goals first
    | exact fun q hq => rfl
    | exact fun q hq => upd_ne hq
    | exact fun q r need ho => .inl ho
    | exact fun q r need ho => .inl (by simpa using ho)
    | skip
  all_goals
    intro hp
    have hr := h.proc p hp
    rw [hpc] at hr
    try simp only [to, upd_self]
    try rw [hpc]
    constructor
    all_goals first
      | exact hr.conf | exact hr.cand | exact hr.cand2 | exact hr.undo | exact hr.snaps
      | exact hr.snapR | exact hr.snapR2 | exact hr.snap3 | exact hr.use
      | (cases hr
         simp only [Pc.unconf, Pc.cand, Pc.cand2, Pc.snapR, Pc.snapR2, Pc.useLoc] at *
         grind)

theorem ret_releaseSize {p : Nat} (h : Ret c s) : Ret c (releaseSize s p) := by
  unfold releaseSize
  split <;> (try exact h)
  all_goals rename_i hpc
  all_goals (try split) <;> (try split)
  all_goals try exact h
  all_goals (refine ret_one (p := p) h rfl rfl rfl ?_ ?_ ?_ ?_ ?_ ?_ ?_)
  all_goals first
    | exact fun q hq => rfl
    | exact fun q hq => upd_ne hq
    | exact fun q r need ho => .inl ho
    | exact fun q r need ho => .inl (by simpa using ho)
    | skip
  all_goals
    intro hp
    have hr := h.proc p hp
    rw [hpc] at hr
    try simp only [to, upd_self]
    try rw [hpc]
    constructor
    all_goals first
      | exact hr.conf | exact hr.cand | exact hr.cand2 | exact hr.undo | exact hr.snaps
      | exact hr.snapR | exact hr.snapR2 | exact hr.snap3 | exact hr.use
      | (cases hr
         simp only [Pc.unconf, Pc.cand, Pc.cand2, Pc.snapR, Pc.snapR2, Pc.useLoc] at *
         grind)

theorem ret_bg {p k : Nat} (h : Ret c s) : Ret c (bg s p k) := by
  unfold bg
  split <;> (try exact h)
  all_goals rename_i hpc
  all_goals (try split) <;> (try split)
  all_goals try exact h
  all_goals (refine ret_one (p := p) h rfl rfl rfl ?_ ?_ ?_ ?_ ?_ ?_ ?_)
  all_goals first
    | exact fun q hq => rfl
    | exact fun q hq => upd_ne hq
    | exact fun q r need ho => .inl ho
    | exact fun q r need ho => .inl (by simpa using ho)
    | skip
  all_goals
    intro hp
    have hr := h.proc p hp
    rw [hpc] at hr
    try simp only [to, upd_self]
    try rw [hpc]
    constructor
    all_goals first
      | exact hr.conf | exact hr.cand | exact hr.cand2 | exact hr.undo | exact hr.snaps
      | exact hr.snapR | exact hr.snapR2 | exact hr.snap3 | exact hr.use
      | (cases hr
         simp only [Pc.unconf, Pc.cand, Pc.cand2, Pc.snapR, Pc.snapR2, Pc.useLoc] at *
         grind)

theorem ret_get {p k : Nat} (h : Ret c s) : Ret c (get c s p k) := by
  unfold get
  split <;> (try exact h)
  all_goals rename_i hpc
  all_goals (try split) <;> (try split)
  all_goals try exact h
  all_goals (refine ret_one (p := p) h rfl rfl rfl ?_ ?_ ?_ ?_ ?_ ?_ ?_)
  all_goals first
    | exact fun q hq => rfl
    | exact fun q hq => upd_ne hq
    | exact fun q r need ho => .inl ho
    | exact fun q r need ho => .inl (by simpa using ho)
    | skip
  all_goals
    intro hp
    have hr := h.proc p hp
    rw [hpc] at hr
    try simp only [to, upd_self]
    try rw [hpc]
    constructor
    all_goals first
      | exact hr.conf | exact hr.cand | exact hr.cand2 | exact hr.undo | exact hr.snaps
      | exact hr.snapR | exact hr.snapR2 | exact hr.snap3 | exact hr.use
      | (cases hr
         simp only [Pc.unconf, Pc.cand, Pc.cand2, Pc.snapR, Pc.snapR2, Pc.useLoc] at *
         grind)

theorem ret_put {p k : Nat} (h : Ret c s) : Ret c (put c s p k) := by
  unfold put
  split <;> (try exact h)
  all_goals rename_i hpc
  all_goals (try split) <;> (try split)
  all_goals try exact h
  all_goals (refine ret_one (p := p) h rfl rfl rfl ?_ ?_ ?_ ?_ ?_ ?_ ?_)
  all_goals first
    | exact fun q hq => rfl
    | exact fun q hq => upd_ne hq
    | exact fun q r need ho => .inl ho
    | exact fun q r need ho => .inl (by simpa using ho)
    | skip
  all_goals
    intro hp
    have hr := h.proc p hp
    rw [hpc] at hr
    try simp only [to, upd_self]
    try rw [hpc]
    constructor
    all_goals first
      | exact hr.conf | exact hr.cand | exact hr.cand2 | exact hr.undo | exact hr.snaps
      | exact hr.snapR | exact hr.snapR2 | exact hr.snap3 | exact hr.use
      | (cases hr
         simp only [Pc.unconf, Pc.cand, Pc.cand2, Pc.snapR, Pc.snapR2, Pc.useLoc] at *
         grind)

theorem ret_release {p : Nat} (h : Ret c s) : Ret c (release s p) := by
  unfold release
  split <;> (try exact h)
  all_goals rename_i hpc
  all_goals (try split) <;> (try split)
  all_goals try exact h
  all_goals (refine ret_one (p := p) h rfl rfl rfl ?_ ?_ ?_ ?_ ?_ ?_ ?_)
  all_goals first
    | exact fun q hq => rfl
    | exact fun q hq => upd_ne hq
    | exact fun q r need ho => .inl ho
    | exact fun q r need ho => .inl (by simpa using ho)
    | skip
  all_goals
    intro hp
    have hr := h.proc p hp
    rw [hpc] at hr
    try simp only [to, upd_self]
    try rw [hpc]
    constructor
    all_goals first
      | exact hr.conf | exact hr.cand | exact hr.cand2 | exact hr.undo | exact hr.snaps
      | exact hr.snapR | exact hr.snapR2 | exact hr.snap3 | exact hr.use
      | (cases hr
         simp only [Pc.unconf, Pc.cand, Pc.cand2, Pc.snapR, Pc.snapR2, Pc.useLoc] at *
         grind)

theorem ret_queue {p : Nat} (h : Ret c s) : Ret c (queue s p) := by
  unfold queue
  split <;> (try exact h)
  all_goals rename_i hpc
  all_goals (try split) <;> (try split)
  all_goals try exact h
  all_goals (refine ret_one (p := p) h rfl rfl rfl ?_ ?_ ?_ ?_ ?_ ?_ ?_)
  all_goals first
    | exact fun q hq => rfl
    | exact fun q hq => upd_ne hq
    | exact fun q r need ho => .inl ho
    | exact fun q r need ho => .inl (by simpa using ho)
    | skip
  all_goals
    intro hp
    have hr := h.proc p hp
    rw [hpc] at hr
    try simp only [to, upd_self]
    try rw [hpc]
    constructor
    all_goals first
      | exact hr.conf | exact hr.cand | exact hr.cand2 | exact hr.undo | exact hr.snaps
      | exact hr.snapR | exact hr.snapR2 | exact hr.snap3 | exact hr.use
      | (cases hr
         simp only [Pc.unconf, Pc.cand, Pc.cand2, Pc.snapR, Pc.snapR2, Pc.useLoc] at *
         grind)

theorem ret_wake {p : Nat} (h : Ret c s) : Ret c (wake s p) := by
  unfold wake
  split <;> (try exact h)
  all_goals rename_i hpc
  all_goals (try split) <;> (try split)
  all_goals try exact h
  all_goals (refine ret_one (p := p) h rfl rfl rfl ?_ ?_ ?_ ?_ ?_ ?_ ?_)
  all_goals first
    | exact fun q hq => rfl
    | exact fun q hq => upd_ne hq
    | exact fun q r need ho => .inl ho
    | exact fun q r need ho => .inl (by simpa using ho)
    | skip
  all_goals
    intro hp
    have hr := h.proc p hp
    rw [hpc] at hr
    try simp only [to, upd_self]
    try rw [hpc]
    constructor
    all_goals first
      | exact hr.conf | exact hr.cand | exact hr.cand2 | exact hr.undo | exact hr.snaps
      | exact hr.snapR | exact hr.snapR2 | exact hr.snap3 | exact hr.use
      | (cases hr
         simp only [Pc.unconf, Pc.cand, Pc.cand2, Pc.snapR, Pc.snapR2, Pc.useLoc] at *
         grind)

theorem ret_free {p : Nat} (h : Ret c s) : Ret c (free s p) := by
  unfold free
  split <;> (try exact h)
  all_goals rename_i hpc
  all_goals (try split) <;> (try split)
  all_goals try exact h
  all_goals (refine ret_one (p := p) h rfl rfl rfl ?_ ?_ ?_ ?_ ?_ ?_ ?_)
  all_goals first
    | exact fun q hq => rfl
    | exact fun q hq => upd_ne hq
    | exact fun q r need ho => .inl ho
    | exact fun q r need ho => .inl (by simpa using ho)
    | skip
  all_goals
    intro hp
    have hr := h.proc p hp
    rw [hpc] at hr
    try simp only [to, upd_self]
    try rw [hpc]
    constructor
    all_goals first
      | exact hr.conf | exact hr.cand | exact hr.cand2 | exact hr.undo | exact hr.snaps
      | exact hr.snapR | exact hr.snapR2 | exact hr.snap3 | exact hr.use
      | (cases hr
         simp only [Pc.unconf, Pc.cand, Pc.cand2, Pc.snapR, Pc.snapR2, Pc.useLoc] at *
         grind)

theorem ret_snap {p : Nat} (h : Ret c s) : Ret c (snap s p) := by
  unfold snap
  split <;> (try exact h)
  all_goals rename_i hpc
  all_goals (try split) <;> (try split)
  all_goals try exact h
  all_goals (refine ret_one (p := p) h rfl rfl rfl ?_ ?_ ?_ ?_ ?_ ?_ ?_)
  all_goals first
    | exact fun q hq => rfl
    | exact fun q hq => upd_ne hq
    | exact fun q r need ho => .inl ho
    | exact fun q r need ho => .inl (by simpa using ho)
    | skip
  all_goals
    intro hp
    have hr := h.proc p hp
    rw [hpc] at hr
    try simp only [to, upd_self]
    try rw [hpc]
    constructor
    all_goals first
      | exact hr.conf | exact hr.cand | exact hr.cand2 | exact hr.undo | exact hr.snaps
      | exact hr.snapR | exact hr.snapR2 | exact hr.snap3 | exact hr.use
      | (cases hr
         simp only [Pc.unconf, Pc.cand, Pc.cand2, Pc.snapR, Pc.snapR2, Pc.useLoc] at *
         grind)

theorem ret_drop {p k : Nat} (h : Ret c s) : Ret c (drop s p k) := by
  unfold drop
  split <;> (try exact h)
  all_goals rename_i hpc
  all_goals (try split) <;> (try split)
  all_goals try exact h
  all_goals (refine ret_one (p := p) h rfl rfl rfl ?_ ?_ ?_ ?_ ?_ ?_ ?_)
  all_goals first
    | exact fun q hq => rfl
    | exact fun q hq => upd_ne hq
    | exact fun q r need ho => .inl ho
    | exact fun q r need ho => .inl (by simpa using ho)
    | skip
  all_goals
    intro hp
    have hr := h.proc p hp
    rw [hpc] at hr
    try simp only [to, upd_self]
    try rw [hpc]
    constructor
    all_goals first
      | exact hr.conf | exact hr.cand | exact hr.cand2 | exact hr.undo | exact hr.snaps
      | exact hr.snapR | exact hr.snapR2 | exact hr.snap3 | exact hr.use
      | (cases hr
         simp only [Pc.unconf, Pc.cand, Pc.cand2, Pc.snapR, Pc.snapR2, Pc.useLoc] at *
         grind [List.mem_of_mem_eraseIdx])

theorem ret_reset {p : Nat} (h : Ret c s) : Ret c (reset s p) := by
  have hlow := @lowest_le (s.snaps p)
  have hlow2 := @lowest_none (s.snaps p)
  unfold reset
  split <;> (try exact h)
  all_goals rename_i hpc
  all_goals (try split) <;> (try split)
  all_goals try exact h
  all_goals (refine ret_one (p := p) h rfl rfl rfl ?_ ?_ ?_ ?_ ?_ ?_ ?_)
  all_goals first
    | exact fun q hq => rfl
    | exact fun q hq => upd_ne hq
    | exact fun q r need ho => .inl ho
    | exact fun q r need ho => .inl (by simpa using ho)
    | skip
  all_goals
    intro hp
    have hr := h.proc p hp
    rw [hpc] at hr
    try simp only [to, upd_self]
    try rw [hpc]
    constructor
    all_goals first
      | exact hr.conf | exact hr.cand | exact hr.cand2 | exact hr.undo | exact hr.snaps
      | exact hr.snapR | exact hr.snapR2 | exact hr.snap3 | exact hr.use
      | (cases hr
         simp only [Pc.unconf, Pc.cand, Pc.cand2, Pc.snapR, Pc.snapR2, Pc.useLoc] at *
         grind)

theorem ret_clearMy {p : Nat} (h : Ret c s) (hc : s.snaps p = []) : Ret c (clearMy s p) := by
  unfold clearMy
  split <;> (try exact h)
  all_goals rename_i hpc
  all_goals (try split) <;> (try split)
  all_goals try exact h
  all_goals (refine ret_one (p := p) h rfl rfl rfl ?_ ?_ ?_ ?_ ?_ ?_ ?_)
  all_goals first
    | exact fun q hq => rfl
    | exact fun q hq => upd_ne hq
    | exact fun q r need ho => .inl ho
    | exact fun q r need ho => .inl (by simpa using ho)
    | skip
  all_goals
    intro hp
    have hr := h.proc p hp
    rw [hpc] at hr
    try simp only [to, upd_self]
    try rw [hpc]
    constructor
    all_goals first
      | exact hr.conf | exact hr.cand | exact hr.cand2 | exact hr.undo | exact hr.snaps
      | exact hr.snapR | exact hr.snapR2 | exact hr.snap3 | exact hr.use
      | (cases hr
         simp only [Pc.unconf, Pc.cand, Pc.cand2, Pc.snapR, Pc.snapR2, Pc.useLoc] at *
         grind)

theorem ret_write {p k : Nat} {vs : List Nat} (h : Ret c s) : Ret c (write c s p k vs) := by
  have hcov := @covers_iff s p k
  unfold write
  split <;> (try exact h)
  all_goals rename_i hpc
  all_goals (try split) <;> (try split)
  all_goals try exact h
  all_goals (refine ret_one (p := p) h rfl rfl rfl ?_ ?_ ?_ ?_ ?_ ?_ ?_)
  all_goals first
    | exact fun q hq => rfl
    | exact fun q hq => upd_ne hq
    | exact fun q r need ho => .inl ho
    | exact fun q r need ho => .inl (by simpa using ho)
    | skip
  all_goals
    intro hp
    have hr := h.proc p hp
    rw [hpc] at hr
    try simp only [to, upd_self]
    try rw [hpc]
    constructor
    all_goals first
      | exact hr.conf | exact hr.cand | exact hr.cand2 | exact hr.undo | exact hr.snaps
      | exact hr.snapR | exact hr.snapR2 | exact hr.snap3 | exact hr.use
      | (cases hr
         simp only [Pc.unconf, Pc.cand, Pc.cand2, Pc.snapR, Pc.snapR2, Pc.useLoc] at *
         grind)

theorem ret_read {p k n : Nat} (h : Ret c s) : Ret c (read c s p k n) := by
  have hcov := @covers_iff s p k
  unfold read
  split <;> (try exact h)
  all_goals rename_i hpc
  all_goals (try split) <;> (try split)
  all_goals try exact h
  all_goals (refine ret_one (p := p) h rfl rfl rfl ?_ ?_ ?_ ?_ ?_ ?_ ?_)
  all_goals first
    | exact fun q hq => rfl
    | exact fun q hq => upd_ne hq
    | exact fun q r need ho => .inl ho
    | exact fun q r need ho => .inl (by simpa using ho)
    | skip
  all_goals
    intro hp
    have hr := h.proc p hp
    rw [hpc] at hr
    try simp only [to, upd_self]
    try rw [hpc]
    constructor
    all_goals first
      | exact hr.conf | exact hr.cand | exact hr.cand2 | exact hr.undo | exact hr.snaps
      | exact hr.snapR | exact hr.snapR2 | exact hr.snap3 | exact hr.use
      | (cases hr
         simp only [Pc.unconf, Pc.cand, Pc.cand2, Pc.snapR, Pc.snapR2, Pc.useLoc] at *
         grind)

theorem ret_same (h : Ret c s) (e1 : s'.minTr = s.minTr) (e2 : s'.minRet = s.minRet)
    (e3 : s'.um = s.um) (e4 : s'.pc = s.pc) (e5 : s'.tr = s.tr) (e6 : s'.sr = s.sr)
    (e7 : s'.snaps = s.snaps) (e8 : s'.undo = s.undo) (e9 : s'.obs = s.obs) : Ret c s' :=
  ⟨by rw [e1, e2, e3, e4, e5, e6, e7, e8]; exact h.proc, by rw [e9]; exact h.took⟩

theorem ret_steal {q p : Nat} (h : Ret c s) : Ret c (steal s q p) := by
  unfold steal
  split
  · exact ret_same h rfl rfl rfl rfl rfl rfl rfl rfl rfl
  · exact h

theorem ret_lose {x : Nat} (h : Ret c s) : Ret c (lose s x) := by
  unfold lose
  split
  · exact ret_same h rfl rfl rfl rfl rfl rfl rfl rfl rfl
  · exact h

theorem ret_hand {q p : Nat} (hi : Inv c s) (h : Ret c s) (hq : q < c.procs)
    (hc : s.tr p ≠ none ∨ s.um = none) : Ret c (hand s q p) := by
  unfold hand
  split
  · rename_i loc n e1 e2
    split
    · rename_i hl
      obtain ⟨hl, hle⟩ := hl
      have hne : q ≠ p := by intro e; subst e; rw [e1] at e2; exact absurd e2 (by simp)
      refine ⟨?_, h.took⟩
      intro i hi'
      have hr := h.proc i hi'
      dsimp only
      by_cases e : i = p
      · subst e
        rw [upd_self, upd_self]
        obtain ⟨_, t, ht1, ht2⟩ := (h.proc q hq).undo loc hl
        have hcf := ((h.proc q hq).conf t ht1 (by rw [e1]; rfl)).1
        rw [e2] at hr ⊢
        have hnew : s.minTr ≤ (s.tr i).getD loc ∧ trOk s.um i ((s.tr i).getD loc) := by
          cases e3 : s.tr i with
          | none =>
            rcases hc with hc | hc
            · exact absurd e3 hc
            · rw [hc]; exact ⟨by simp; omega, trOk_none⟩
          | some t' => exact hr.conf t' e3 rfl
        exact
          { conf := by
              intro t' ht' _
              cases ht'
              exact hnew
            cand := by simp [Pc.cand]
            cand2 := by simp [Pc.cand2]
            undo := by
              intro x hx
              refine ⟨rfl, _, rfl, ?_⟩
              rcases List.mem_cons.1 hx with rfl | hx
              · exact hle
              · obtain ⟨_, t', h3, h4⟩ := hr.undo x hx
                rw [h3]; exact h4
            snaps := hr.snaps
            snapR := by simp [Pc.snapR]
            snapR2 := by simp [Pc.snapR2]
            snap3 := by simp
            use := by simp [Pc.useLoc] }
      · rw [upd_ne e, upd_ne e]
        by_cases e3 : i = q
        · subst e3
          rw [upd_self]
          exact
            { conf := hr.conf
              cand := hr.cand
              cand2 := hr.cand2
              undo := fun x hx => hr.undo x (List.mem_of_mem_erase hx)
              snaps := hr.snaps
              snapR := hr.snapR
              snapR2 := hr.snapR2
              snap3 := hr.snap3
              use := hr.use }
        · rw [upd_ne e3]; exact hr
    · exact h
  · exact h

theorem cand_of_cand2 {pc : Pc} {l : Nat} (h : pc.cand2 = some l) : pc.cand = some l := by
  unfold Pc.cand2 at h
  split at h
  · exact h
  · exact h
  · exact absurd h (by simp)

/-- The scan goes on; the minimal locations stay. -/
theorem ROk.um {mt mr q : Nat} {um um' : Option Um} {pc : Pc} {tr sr : Option Nat}
    {sn un : List Nat} (h : ROk mt mr um q pc tr sr sn un)
    (h1 : ∀ t, trOk um q t → tr = some t → trOk um' q t)
    (h2 : ∀ r, srOk um q r → (∃ v, sr = some v ∧ v ≤ r) → srOk um' q r) :
    ROk mt mr um' q pc tr sr sn un :=
  { conf := fun t ht hp => ⟨(h.conf t ht hp).1, h1 t (h.conf t ht hp).2 ht⟩
    cand := h.cand
    cand2 := fun l hl => h1 l (h.cand2 l hl) (h.cand l (cand_of_cand2 hl))
    undo := h.undo
    snaps := fun r hr => ⟨(h.snaps r hr).1, (h.snaps r hr).2.1, h2 r (h.snaps r hr).2.2 (h.snaps r hr).1⟩
    snapR := h.snapR
    snapR2 := h.snapR2
    snap3 := fun r hr => h2 r (h.snap3 r hr) (h.snapR2 r (by rw [hr]; rfl))
    use := h.use }

theorem ret_umStart {cl : Bool} (h : Ret c s) : Ret c (umStart s cl) := by
  unfold umStart
  split
  · refine ⟨fun q hq => (h.proc q hq).um ?_ ?_, h.took⟩
    · intro t _ _ u b e1 e2; cases e1; simp [UmPc.cb] at e2
    · intro t _ _ u b e1 e2; cases e1; simp [UmPc.ca] at e2
  · exact h

theorem ret_um (h : Ret c s) : ∀ s' : St, s'.minTr = s.minTr → s'.minRet = s.minRet →
    s'.pc = s.pc → s'.tr = s.tr → s'.sr = s.sr → s'.snaps = s.snaps → s'.undo = s.undo →
    s'.obs = s.obs →
    (∀ q, q < c.procs → ∀ t, trOk s.um q t → s.tr q = some t → trOk s'.um q t) →
    (∀ q, q < c.procs → ∀ r, srOk s.um q r → (∃ v, s.sr q = some v ∧ v ≤ r) → srOk s'.um q r) →
    Ret c s' := by
  intro s' e1 e2 e3 e4 e5 e6 e7 e8 h1 h2
  refine ⟨?_, by rw [e8]; exact h.took⟩
  intro q hq
  rw [e1, e2, e3, e4, e5, e6, e7]
  exact (h.proc q hq).um (h1 q hq) (h2 q hq)

set_option maxHeartbeats 1000000 in
theorem ret_umGo (h : Ret c s) : Ret c (umGo c s) := by
  have hoth : ∀ s' : St, s'.minTr = s.minTr → s'.minRet = s.minRet → s'.pc = s.pc →
      s'.tr = s.tr → s'.sr = s.sr → s'.snaps = s.snaps → s'.undo = s.undo → s'.obs = s.obs →
      (∀ q, q < c.procs → ∀ t, trOk s.um q t → s.tr q = some t → trOk s'.um q t) →
      (∀ q, q < c.procs → ∀ r, srOk s.um q r → (∃ v, s.sr q = some v ∧ v ≤ r) → srOk s'.um q r) →
      Ret c s' := ret_um h
  unfold umGo
  split
  · exact h
  · rename_i u hu
    rw [hu] at hoth
    split
    all_goals (rename_i hpc)
    · refine hoth _ rfl rfl rfl rfl rfl rfl rfl rfl ?_ ?_
      · intro q hq t _ _ u' b e1 e2 e3; cases e1; simp [UmPc.trSeen] at e3
      · intro q hq t _ _ u' b e1 e2 e3; cases e1; simp [UmPc.srSeen] at e3
    · rename_i i x b a
      split
      · refine hoth _ rfl rfl rfl rfl rfl rfl rfl rfl ?_ ?_
        · intro q hq t h1 _ u' b' e1 e2 e3
          cases e1
          exact h1 u b' rfl (by rw [hpc]; exact e2) (by rw [hpc]; exact e3)
        · intro q hq t h1 _ u' b' e1 e2 e3
          cases e1
          exact h1 u b' rfl (by rw [hpc]; exact e2) (by rw [hpc]; exact e3)
      · refine hoth _ rfl rfl rfl rfl rfl rfl rfl rfl ?_ ?_
        · intro q hq t h1 _ u' b' e1 e2 e3
          cases e1
          exact h1 u b' rfl (by rw [hpc]; exact e2) (by rw [hpc]; simp [UmPc.trSeen]; omega)
        · intro q hq t h1 _ u' b' e1 e2 e3
          cases e1
          exact h1 u b' rfl (by rw [hpc]; exact e2) (by rw [hpc]; simp [UmPc.srSeen]; omega)
    · rename_i i x b a
      refine hoth _ rfl rfl rfl rfl rfl rfl rfl rfl ?_ ?_
      · intro q hq t h1 h2 u' b' e1 e2 e3
        cases e1
        simp only [UmPc.cb, Option.some.injEq] at e2
        simp only [UmPc.trSeen, decide_eq_true_eq] at e3
        subst e2
        exact minOpt_at h2 (Nat.le_refl _) e3
          (fun hlt => h1 u b rfl (by rw [hpc]; rfl) (by rw [hpc]; simp [UmPc.trSeen]; omega))
      · intro q hq t h1 h2 u' b' e1 e2 e3
        cases e1
        simp only [UmPc.ca, Option.some.injEq] at e2
        simp only [UmPc.srSeen, decide_eq_true_eq] at e3
        subst e2
        exact Nat.le_trans minOpt_le
          (h1 u a rfl (by rw [hpc]; rfl) (by rw [hpc]; simp [UmPc.srSeen]; omega))
    · rename_i i x b a
      refine hoth _ rfl rfl rfl rfl rfl rfl rfl rfl ?_ ?_
      · intro q hq t h1 h2 u' b' e1 e2 e3
        cases e1
        simp only [UmPc.trSeen, decide_eq_true_eq] at e3
        exact h1 u b' rfl (by rw [hpc]; exact e2) (by rw [hpc]; simp [UmPc.trSeen]; omega)
      · intro q hq t h1 h2 u' b' e1 e2 e3
        cases e1
        simp only [UmPc.ca, Option.some.injEq] at e2
        simp only [UmPc.srSeen, decide_eq_true_eq] at e3
        subst e2
        obtain ⟨v, h3, h4⟩ := h2
        exact minOpt_at h3 h4 (by omega)
          (fun hlt => h1 u a rfl (by rw [hpc]; rfl) (by rw [hpc]; simp [UmPc.srSeen]; omega))
    · refine hoth _ rfl rfl rfl rfl rfl rfl rfl rfl ?_ ?_
      · intro q hq t h1 h2 u' b' e1 e2 e3
        cases e1
        exact h1 u b' rfl (by rw [hpc]; exact e2) (by rw [hpc]; rfl)
      · intro q hq t h1 h2 u' b' e1 e2 e3
        cases e1
        exact h1 u b' rfl (by rw [hpc]; exact e2) (by rw [hpc]; rfl)
    · rename_i b a
      refine ⟨fun q hq => ?_, h.took⟩
      have hr := h.proc q hq
      rw [hu] at hr
      have h1 : ∀ t, trOk (some u) q t → trOk (some { u with pc := .pub3 b }) q t := by
        intro t h1 u' b' e1 e2 e3
        cases e1
        exact h1 u b' rfl (by rw [hpc]; exact e2) (by rw [hpc]; rfl)
      have h2 : ∀ r, srOk (some { u with pc := .pub3 b }) q r := by
        intro t u' b' e1 e2 e3
        cases e1
        simp [UmPc.ca] at e2
      have h3 := hr.um (um' := some { u with pc := .pub3 b }) (fun t a _ => h1 t a)
        (fun r _ _ => h2 r)
      exact
        { conf := h3.conf
          cand := h3.cand
          cand2 := h3.cand2
          undo := h3.undo
          snaps := fun r hr' => ⟨(h3.snaps r hr').1, by
            have h4 := (hr.snaps r hr').2.2 u a rfl (by rw [hpc]; rfl) (by rw [hpc]; rfl)
            have h5 := (hr.snaps r hr').2.1
            dsimp only; omega, (h3.snaps r hr').2.2⟩
          snapR := h3.snapR
          snapR2 := h3.snapR2
          snap3 := h3.snap3
          use := h3.use }
    · rename_i b
      refine ⟨fun q hq => ?_, h.took⟩
      have hr := h.proc q hq
      rw [hu] at hr
      have h1 : ∀ t, trOk (some { u with pc := .pub4 }) q t := by
        intro t u' b' e1 e2 e3
        cases e1
        simp [UmPc.cb] at e2
      have h2 : ∀ r, srOk (some { u with pc := .pub4 }) q r := by
        intro t u' b' e1 e2 e3
        cases e1
        simp [UmPc.ca] at e2
      have h3 := hr.um (um' := some { u with pc := .pub4 }) (fun t _ _ => h1 t)
        (fun r _ _ => h2 r)
      exact
        { conf := fun t ht hp => by
            obtain ⟨h4, h5⟩ := hr.conf t ht hp
            have h6 := h5 u b rfl (by rw [hpc]; rfl) (by rw [hpc]; rfl)
            exact ⟨by dsimp only; omega, h1 t⟩
          cand := h3.cand
          cand2 := h3.cand2
          undo := h3.undo
          snaps := h3.snaps
          snapR := fun r hr' => by have := h3.snapR r hr'; dsimp only; omega
          snapR2 := h3.snapR2
          snap3 := h3.snap3
          use := h3.use }
    · refine hoth _ rfl rfl rfl rfl rfl rfl rfl rfl ?_ ?_
      · intro q hq t h1 h2 u' b' e1 e2 e3
        cases e1
        split at e2 <;> simp [UmPc.cb] at e2
      · intro q hq t h1 h2 u' b' e1 e2 e3
        cases e1
        split at e2 <;> simp [UmPc.ca] at e2
    · split
      all_goals
        refine hoth _ rfl rfl rfl rfl rfl rfl rfl rfl ?_ ?_
        · intro q hq t h1 h2 u' b' e1 e2 e3
          cases e1
          simp [UmPc.cb] at e2
        · intro q hq t h1 h2 u' b' e1 e2 e3
          cases e1
          simp [UmPc.ca] at e2
    · refine hoth _ rfl rfl rfl rfl rfl rfl rfl rfl ?_ ?_
      · intro q hq t h1 h2 u' b' e1 e2 e3
        cases e1
        simp [UmPc.cb] at e2
      · intro q hq t h1 h2 u' b' e1 e2 e3
        cases e1
        simp [UmPc.ca] at e2
    · exact hoth _ rfl rfl rfl rfl rfl rfl rfl rfl (fun _ _ _ _ _ => trOk_none)
        (fun _ _ _ _ _ => srOk_none)
    · exact h

/-- The caller of an eviction goes on. -/
theorem ROk.idle {mt mr q : Nat} {um um' : Option Um} {pc : Pc} {tr sr : Option Nat}
    {sn un : List Nat} (h : ROk mt mr um q pc tr sr sn un) (hpc : pc.unconf = false)
    (h1 : ∀ t, trOk um q t → trOk um' q t) (h2 : ∀ r, srOk um q r → srOk um' q r) :
    ROk mt mr um' q .idle tr sr sn un :=
  { conf := fun t ht _ => ⟨(h.conf t ht hpc).1, h1 t (h.conf t ht hpc).2⟩
    cand := by simp [Pc.cand]
    cand2 := by simp [Pc.cand2]
    undo := fun x hx => ⟨rfl, (h.undo x hx).2⟩
    snaps := fun r hr => ⟨(h.snaps r hr).1, (h.snaps r hr).2.1, h2 r (h.snaps r hr).2.2⟩
    snapR := by simp [Pc.snapR]
    snapR2 := by simp [Pc.snapR2]
    snap3 := by simp
    use := by simp [Pc.useLoc] }

theorem ret_evDone {e : Ev} {um : Option Um} {w : Nat} (hs : Sums c s) (h : Ret c s)
    (he : s.ev = some e) (hum : um = none ∨ um = s.um) :
    Ret c
      { evDone s e with
        um := um
        written := w } := by
  have h1 : ∀ q t, trOk s.um q t → trOk um q t := by
    intro q t h1
    rcases hum with rfl | rfl
    · exact trOk_none
    · exact h1
  have h2 : ∀ q t, srOk s.um q t → srOk um q t := by
    intro q t h3
    rcases hum with rfl | rfl
    · exact srOk_none
    · exact h3
  refine ⟨fun q hq => ?_, h.took⟩
  have hr := h.proc q hq
  unfold evDone
  dsimp only
  by_cases e1 : q = e.owner
  · subst e1
    rw [upd_self]
    refine hr.idle ?_ (h1 _) (h2 _)
    rcases hs.owner e he with h3 | ⟨t, k, h3⟩ <;> (rw [h3]; rfl)
  · rw [upd_ne e1]
    exact hr.um (fun t a _ => h1 q t a) (fun r a _ => h2 q r a)

theorem ret_evGo (hs : Sums c s) (h : Ret c s) : Ret c (evGo c s) := by
  unfold evGo
  split
  · exact h
  · rename_i e he
    split
    · split
      · refine ret_um h _ rfl rfl rfl rfl rfl rfl rfl rfl ?_ ?_
        · intro q hq t h1 h2 u' b' e1 e2 e3
          cases e1
          simp [UmPc.cb] at e2
        · intro q hq t h1 h2 u' b' e1 e2 e3
          cases e1
          simp [UmPc.ca] at e2
      · exact h
    · split
      · split
        · exact h
        · split
          · split
            · exact ret_same h rfl rfl rfl rfl rfl rfl rfl rfl rfl
            · exact ret_evDone (w := s.written) hs h he (.inl rfl)
          · exact ret_um h _ rfl rfl rfl rfl rfl rfl rfl rfl (fun _ _ _ _ _ => trOk_none)
              (fun _ _ _ _ _ => srOk_none)
      · exact h
    · exact ret_evDone hs h he (.inl rfl)
    all_goals (try split) <;> (try split) <;> first
      | exact h
      | exact ret_same h rfl rfl rfl rfl rfl rfl rfl rfl rfl
      | exact ret_evDone (um := s.um) hs h he (.inr rfl)
      | exact ⟨h.proc, fun p r need ho => h.took p r need (by simpa using ho)⟩

theorem ret_step {a : Act} (hi : Inv c s) (h : Ret c s) (hc : calmStep s a) :
    Ret c (step c s a) := by
  unfold step
  split
  · rename_i hp
    cases a <;> simp only [Act.procs, List.all_cons, List.all_nil, Bool.and_true, Bool.and_eq_true,
      decide_eq_true_eq] at hp <;> dsimp only [act]
    all_goals first
      | exact ret_go hi h hp
      | exact ret_reserve h
      | exact ret_giveUp h
      | exact ret_releaseSize h
      | exact ret_bg h
      | exact ret_get h
      | exact ret_put h
      | exact ret_release h
      | exact ret_queue h
      | exact ret_steal h
      | exact ret_hand hi h hp.1 hc
      | exact ret_wake h
      | exact ret_free h
      | exact ret_snap h
      | exact ret_drop h
      | exact ret_reset h
      | exact ret_clearMy h hc
      | exact ret_write h
      | exact ret_read h
      | exact ret_umStart h
      | exact ret_umGo h
      | exact ret_evGo hi.sums h
      | exact ret_lose h
  · exact h

theorem ret_init (n : Nat) : Ret c (init n) := by
  refine ⟨fun q _ => ?_, by simp [init]⟩
  constructor <;> simp [init, Pc.unconf, Pc.cand, Pc.cand2, Pc.snapR, Pc.snapR2, Pc.useLoc]

end Verif.UndoLog
