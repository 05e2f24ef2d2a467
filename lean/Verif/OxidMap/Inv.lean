import Verif.OxidMap.Spec

/-!
# The invariant
-/

set_option linter.unusedVariables false

namespace Verif.OxidMap

variable {c : Cfg} {s s' : St} {p q : Nat}

/-- The status of a transaction. -/
def St.st (s : St) (x : Nat) : Csn := value s.tr x

/-! ## Histories -/

/-- An event that is not the start or the end of a call of `p`. -/
def Foreign (p : Nat) (e : Ev) : Prop := (∀ c, e ≠ .call p c) ∧ ∀ c v, e ≠ .ret p c v

theorem During.cons {cl : Call} {tr mid : List Ev} {e : Ev} (h : During p cl tr mid)
    (he : Foreign p e) : During p cl (e :: tr) mid := by
  obtain ⟨later, earlier, sofar, h1, h2, h3, h4⟩ := h
  refine ⟨e :: later, earlier, sofar, by rw [h1]; rfl, h2, ?_, ?_⟩
  · intro o' hm
    rw [List.cons_append, List.mem_cons] at hm
    rcases hm with hm | hm
    · exact he.1 _ hm.symm
    · exact h3 _ hm
  · intro o' v hm
    rw [List.cons_append, List.mem_cons] at hm
    rcases hm with hm | hm
    · exact he.2 _ _ hm.symm
    · exact h4 _ _ hm

theorem During.now {cl : Call} {tr : List Ev} {e : Ev} (h : During p cl tr tr)
    (he : Foreign p e) : During p cl (e :: tr) (e :: tr) := by
  obtain ⟨later, earlier, sofar, h1, h2, h3, h4⟩ := h
  have hl : later = [] := by
    have := congrArg List.length h1
    rw [List.length_append] at this
    exact List.eq_nil_of_length_eq_zero (by omega)
  subst hl
  refine ⟨[], earlier, e :: sofar, rfl, by rw [h2]; rfl, ?_, ?_⟩
  · intro o' hm
    rw [List.nil_append, List.mem_cons] at hm
    rcases hm with hm | hm
    · exact he.1 _ hm.symm
    · exact h3 _ hm
  · intro o' v hm
    rw [List.nil_append, List.mem_cons] at hm
    rcases hm with hm | hm
    · exact he.2 _ _ hm.symm
    · exact h4 _ _ hm

theorem During.start {cl : Call} {tr : List Ev} :
    During p cl (.call p cl :: tr) (.call p cl :: tr) :=
  ⟨[], tr, [], rfl, rfl, fun o' hm => (by simp at hm), fun o' v hm => (by simp at hm)⟩

theorem Foreign.lin {x : Nat} {v : Csn} : Foreign p (.lin x v) :=
  ⟨fun _ h => (by cases h), fun _ _ h => (by cases h)⟩

theorem Foreign.global {g : Nat} : Foreign p (.global g) :=
  ⟨fun _ h => (by cases h), fun _ _ h => (by cases h)⟩

theorem Foreign.call {cl : Call} (h : q ≠ p) : Foreign p (.call q cl) :=
  ⟨fun _ e => (by cases e; exact h rfl), fun _ _ e => (by cases e)⟩

theorem Foreign.ret {cl : Call} {v : Csn} (h : q ≠ p) : Foreign p (.ret q cl v) :=
  ⟨fun _ e => (by cases e), fun _ _ e => (by cases e; exact h rfl)⟩

/-! ## Parts of the invariant -/

/-- The session's transaction, if any, is in progress. -/
def Running (s : St) (p : Nat) : Prop := ∀ x, s.own p = some x → ∃ b, s.st x = .special p b

/-- The session's transaction is over. -/
def Ended (s : St) (p : Nat) : Prop := ∃ x, s.own p = some x ∧ (s.st x).finished = true

/-- The session sets its transaction's status. -/
structure Setting (s : St) (p x : Nat) (v : Csn) : Prop where
  own : s.own p = some x
  ok : v.okFor p = true
  now : During p (.set x v) s.tr s.tr

/-- The status has been set during the call. -/
structure IsSet (s : St) (p x : Nat) (v : Csn) : Prop where
  st : s.st x = v
  lin : ∃ mid, During p (.set x v) s.tr (.lin x v :: mid)

/-- The status has been set, or still is one of a transaction in progress. -/
def MaySet (s : St) (p x : Nat) (v : Csn) (d : Bool) : Prop :=
  (d = true → IsSet s p x v) ∧ (d = false → ∃ b, s.st x = .special p b)

/-- What a look-up knows about a value it read. -/
def Seen (s : St) (p : Nat) (run : Bool) (x : Nat) (v : Csn) : Prop :=
  if run then v.finished = true → (s.st x).finished = true
  else ∃ mid, During p (.get x) s.tr mid ∧ value mid x = v

/-- A look-up in progress. -/
def QOk (s : St) (p : Nat) (run : Bool) (x : Nat) : Q → Prop
  | .ring => True
  | .wip v => s.wip ≤ x → Seen s p run x v
  | .written => x < s.wip
  | .lock => x < s.wip
  | .file => x < s.wr
  | .glob v => x < s.glob ∨ Seen s p run x v

/-- A session, as far as other sessions do not touch what it is about. -/
def PcOk (c : Cfg) (s : St) (p : Nat) : Pc → Prop
  | .beginWait x => Setting s p x (.special p false) ∧ s.st x = .frozen
  | .setOld x v => Setting s p x v ∧ ∃ b, s.st x = .special p b
  | .setWip x v old => Setting s p x v ∧ (∃ b, s.st x = .special p b) ∧ (s.wip ≤ x → old = s.st x)
  | .setCas x v old => Setting s p x v ∧ (∃ b, s.st x = .special p b) ∧ old = s.st x
  | .setDirty x v => Setting s p x v ∧ IsSet s p x v
  | .setRecheck x v => Setting s p x v ∧ IsSet s p x v
  | .setWritten x v d => Setting s p x v ∧ MaySet s p x v d ∧ x < s.wip
  | .setLock x v d => Setting s p x v ∧ MaySet s p x v d ∧ x < s.wip
  | .setFile x v d => Setting s p x v ∧ MaySet s p x v d ∧ x < s.wr
  | .runRead x => s.own p = some x ∧ (s.st x).finished = true
  | .runCas r => Ended s p ∧ c.start ≤ r ∧ r ≤ s.run ∧ (s.st r).finished = true
  | .map true x q => Ended s p ∧ c.start ≤ x ∧ x ≤ s.run ∧ x < s.wr + c.size ∧ QOk s p true x q
  | .map false x q => Running s p ∧ c.start ≤ x ∧ x < s.wr + c.size ∧
      During p (.get x) s.tr s.tr ∧ QOk s p false x q
  | _ => Running s p

/-- The lock is held at this position. -/
def Pc.holds : Pc → Bool
  | .scanStart _ => true
  | .scan _ _ => true
  | .drain _ _ _ _ => true
  | .drainWrite _ _ _ _ _ => true
  | .drainEnd _ => true
  | .drainUnlock => true
  | .freeze _ _ => true
  | .flPreload _ => true
  | .flCopy _ _ _ => true
  | .flRefresh _ _ _ => true
  | .flDisk _ _ _ => true
  | _ => false

/-- The files have the status. -/
def Filed (c : Cfg) (s : St) (x : Nat) : Prop :=
  (s.file x = s.st x ∨ x < s.glob) ∧
  (s.fdirty (x / c.page) = false → (∀ q t b, s.pc q ≠ .flDisk (x / c.page) t b) →
    s.file x = s.disk x ∨ x < s.glob)

/-- `write_xidsmap` at work: below `ws` in the files, below `cur` in its own buffer, below
`xmax` still in the ring. -/
structure Draining (c : Cfg) (s : St) (ws xmax cur : Nat) (buf : Nat → Csn) : Prop where
  top : xmax = s.wip
  wsLo : s.wr ≤ ws
  wsCur : ws ≤ cur
  curHi : cur ≤ xmax
  hi : xmax ≤ s.wr + c.size
  empty : ∀ y, s.wr ≤ y → y < cur → s.ring (y % c.size) = .frozen
  ring : ∀ y, cur ≤ y → y < xmax → s.ring (y % c.size) = s.st y
  buf : ∀ y, ws ≤ y → y < cur → buf y = s.st y
  filed : ∀ y, s.wr ≤ y → y < ws → Filed c s y

/-- What the checkpointer will write for a page. -/
def PageBuf (c : Cfg) (s : St) (pg : Nat) (t : Bool) (buf : Nat → Csn) : Prop :=
  s.wip = s.wr ∧
  (t = true → ∀ x, c.start ≤ x → x < s.wr → x / c.page = pg → buf x = s.st x ∨ x < s.glob) ∧
  (t = false → ∀ x, x / c.page = pg → s.wr ≤ x)

/-- The holder of the lock. -/
def HoldOk (c : Cfg) (s : St) : Pc → Prop
  | .scanStart _ => s.wip = s.wr
  | .scan cur _ => s.wip = s.wr ∧ s.wr ≤ cur ∧ cur ≤ s.wr + c.size ∧
      ∀ y, s.wr ≤ y → y < cur → s.st y ≠ .frozen
  | .drain ws xmax cur buf => Draining c s ws xmax cur buf ∧ ws < xmax ∧
      cur ≤ (ws / c.page + 1) * c.page
  | .drainWrite ws we xmax buf _ => Draining c s ws xmax we buf ∧ ws < xmax ∧
      we = min ((ws / c.page + 1) * c.page) xmax
  | .drainEnd xmax => Draining c s xmax xmax xmax (fun _ => .frozen)
  | .drainUnlock => s.wip = s.wr
  | .freeze cur g => g = s.wip ∧ s.wr ≤ cur ∧ cur ≤ g ∧ g ≤ s.glob ∧ g ≤ s.wr + c.size ∧
      (∀ y, s.wr ≤ y → y < cur → s.ring (y % c.size) = .frozen)
  | .flPreload _ => s.wip = s.wr
  | .flCopy pg t buf => PageBuf c s pg t buf
  | .flRefresh pg t buf => PageBuf c s pg t buf
  | .flDisk pg t buf => PageBuf c s pg t buf
  | _ => False

/-- A session that will carry `runXmin` on. -/
def Resp (s : St) : Pc → Prop
  | .setDirty x _ => x = s.run
  | .setRecheck x _ => x = s.run
  | .setWritten x _ d => x = s.run ∧ d = true
  | .setLock x _ d => x = s.run ∧ d = true
  | .setFile x _ d => x = s.run ∧ d = true
  | .runRead x => x = s.run
  | .runCas r => r = s.run
  | .map true x (.wip v) => x = s.run ∧ (v.finished = true ∨ x < s.wip)
  | .map true x (.glob v) => x = s.run ∧ v.finished = true
  | .map true x _ => x = s.run
  | _ => False

/-- The invariant. -/
structure Inv (c : Cfg) (s : St) : Prop where
  startNext : c.start ≤ s.next
  startGlob : c.start ≤ s.glob
  globRun : s.glob ≤ s.run
  startWr : c.start ≤ s.wr
  wrWip : s.wr ≤ s.wip
  begun : ∀ x, s.st x ≠ .frozen → c.start ≤ x ∧ x < s.next ∧ x + 1 < s.wr + c.size
  wipBegun : ∀ x, c.start ≤ x → x < s.wip → s.st x ≠ .frozen
  runOver : ∀ x, c.start ≤ x → x < s.run → (s.st x).finished = true
  owner : ∀ x q b, s.st x = .special q b → s.own q = some x
  uniq : ∀ p q x, s.own p = some x → s.own q = some x → p = q
  ownRange : ∀ p x, s.own p = some x → c.start ≤ x ∧ x < s.next
  owned : ∀ x, c.start ≤ x → x < s.next → (s.st x).finished = true ∨ ∃ p, s.own p = some x
  ring : ∀ x, s.wip ≤ x → x < s.wr + c.size → s.ring (x % c.size) = s.st x
  slots : ∀ x, s.wr ≤ x → x < s.wr + c.size →
    s.ring (x % c.size) = s.st x ∨ s.ring (x % c.size) = .frozen
  filed : ∀ x, c.start ≤ x → x < s.wr → Filed c s x
  lockFree : s.lock = none → s.wip = s.wr
  held : ∀ p, s.lock = some p → HoldOk c s (s.pc p)
  holder : ∀ p, (s.pc p).holds = true → s.lock = some p
  pcs : ∀ p, PcOk c s p (s.pc p)
  resp : (s.st s.run).finished = true → ∃ p, Resp s (s.pc p)
  globEv : c.start < s.glob → Ev.global s.glob ∈ s.tr
  lins : ∀ x v, Ev.lin x v ∈ s.tr → s.st x ≠ .frozen
  hist : C19 s.tr

end Verif.OxidMap
