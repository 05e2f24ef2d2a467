import Verif.UndoLog.Model

/-!
# Invariants of the undo log that hold in all runs
-/

namespace Verif.UndoLog

/-- What a process has added to `advanceReservedLocation` without being granted it yet: up to
where, how much. -/
def Pc.pend : Pc → Option (Nat × Nat)
  | .pending t k => some (t, k)
  | .checking t k => some (t, k)
  | .ready t k _ => some (t, k)
  | .ready2 t k _ => some (t, k)
  | .waiting t k => some (t, k)
  | .wantEv t k _ => some (t, k)
  | .evicting t k => some (t, k)
  | _ => none

/-- A value of `minProcReservedLocation` a process has read and may pass on. -/
def Pc.heldM : Pc → Option Nat
  | .ready _ _ m => some m
  | .ready2 _ _ m => some m
  | .wantEv _ _ m => some m
  | .bgWant _ m => some m
  | _ => none

/-- The record a process is filling. -/
def Pc.making : Pc → Option Rec
  | .fill loc n _ => some ⟨loc, n⟩
  | .made loc n => some ⟨loc, n⟩
  | _ => none

/-- The sum over the processes. -/
def sumTo : Nat → (Nat → Nat) → Nat
  | 0, _ => 0
  | n + 1, f => sumTo n f + f n

/-- What a process has reserved, without what is pending beyond `l`. -/
def cnt (sz : Nat → Nat) (pc : Nat → Pc) (l p : Nat) : Nat :=
  sz p - (match (pc p).pend with
    | some (t, k) => if l < t then k else 0
    | none => 0)

theorem sumTo_congr {f g : Nat → Nat} : ∀ n, (∀ p, p < n → f p = g p) → sumTo n f = sumTo n g
  | 0, _ => rfl
  | n + 1, h => by
    rw [sumTo, sumTo, sumTo_congr n (fun p hp => h p (by omega)), h n (by omega)]

theorem sumTo_le {f g : Nat → Nat} : ∀ n, (∀ p, p < n → f p ≤ g p) → sumTo n f ≤ sumTo n g
  | 0, _ => Nat.le_refl _
  | n + 1, h => by
    rw [sumTo, sumTo]
    have := sumTo_le n (fun p hp => h p (by omega))
    have := h n (by omega)
    omega

theorem sumTo_one {f g : Nat → Nat} {p : Nat} : ∀ n, p < n → (∀ q, q < n → q ≠ p → f q = g q) →
    sumTo n f + g p = sumTo n g + f p
  | 0, h, _ => by omega
  | n + 1, hp, h => by
    rw [sumTo, sumTo]
    by_cases e : p = n
    · subst e
      have := sumTo_congr (f := f) (g := g) p (fun q hq => h q (by omega) (by omega))
      omega
    · have := sumTo_one n (by omega) (fun q hq hn => h q (by omega) hn)
      have := h n (by omega) (by omega)
      omega

theorem sumTo_ge {f : Nat → Nat} {p : Nat} : ∀ n, p < n → f p ≤ sumTo n f
  | 0, h => by omega
  | n + 1, hp => by
    rw [sumTo]
    by_cases e : p = n
    · subst e; omega
    · have := sumTo_ge (f := f) n (p := p) (by omega)
      omega

/-- All that was reserved is either used or accounted for; what is granted fits into the ring
above `writtenLocation`. -/
structure Sums (c : Cfg) (s : St) : Prop where
  pend : ∀ p t k, (s.pc p).pend = some (t, k) → k ≤ s.sz p
  total : s.adv = s.used + sumTo c.procs s.sz
  grant : ∀ l, s.written + c.size ≤ l → s.used + sumTo c.procs (cnt s.sz s.pc l) ≤ l
  waiting : ∀ p t k, s.pc p = .waiting t k → t ≤ s.wip + c.size
  evicting : ∀ p t k, s.pc p = .evicting t k →
    ∃ e, s.ev = some e ∧ e.owner = p ∧ t ≤ e.target + c.size
  ownerLt : ∀ e, s.ev = some e → e.owner < c.procs
  owner : ∀ e, s.ev = some e → s.pc e.owner = .bgEv ∨ ∃ t k, s.pc e.owner = .evicting t k

/-- The candidate for `minProcReservedLocation`. -/
def UmPc.cx : UmPc → Option Nat
  | .res _ x _ _ => some x
  | .tr _ x _ _ => some x
  | .sr _ x _ _ => some x
  | .pub1 x _ _ => some x
  | _ => none

/-- The candidate for `minProcTransactionRetainLocation`. -/
def UmPc.cb : UmPc → Option Nat
  | .res _ _ b _ => some b
  | .tr _ _ b _ => some b
  | .sr _ _ b _ => some b
  | .pub1 _ b _ => some b
  | .pub2 b _ => some b
  | .pub3 b => some b
  | _ => none

/-- The candidate for `minProcRetainLocation`. -/
def UmPc.ca : UmPc → Option Nat
  | .res _ _ _ a => some a
  | .tr _ _ _ a => some a
  | .sr _ _ _ a => some a
  | .pub1 _ _ a => some a
  | .pub2 _ a => some a
  | _ => none

/-- The target of the write in progress. -/
def EvPc.tgt : EvPc → Option Nat
  | .decided _ t => some t
  | .waits _ _ t => some t
  | .copy _ t => some t
  | .finish t => some t
  | _ => none

/-- Where the write in progress begins, or is. -/
def EvPc.pos : EvPc → Option Nat
  | .decided r _ => some r
  | .waits _ r _ => some r
  | .copy x _ => some x
  | .finish t => some t
  | _ => none

/-- Locations up to which a process has reserved, and the value of `minProcReservedLocation` it
has compared it with. -/
def Pc.readyM : Pc → Option (Nat × Nat)
  | .ready t _ m => some (t, m)
  | .ready2 t _ m => some (t, m)
  | .wantEv t _ m => some (t, m)
  | _ => none

/-- A location a process is about to publish, or the end of what it is about to write. -/
def Pc.toPub : Pc → Option Nat
  | .get1 _ _ l => some l
  | .get2 _ _ l => some l
  | .get3 _ _ l => some l
  | .get4 _ _ l => some l
  | .get5 _ _ l => some l
  | .wr0 loc vs => some (loc + vs.length)
  | .wr1 loc vs m => some (max m (loc + vs.length))
  | .wr2 loc vs m => some (max m (loc + vs.length))
  | .wr3 loc vs m => some (max m (loc + vs.length))
  | _ => none

/-- The order of the locations. -/
structure Marks (c : Cfg) (s : St) : Prop where
  wWip : s.written ≤ s.wip
  wipUsed : s.wip ≤ s.used
  resUsed : s.minRes ≤ s.used
  trUsed : s.minTr ≤ s.used
  retTr : (∀ u b, s.um = some u → u.pc ≠ .pub3 b) → s.minRet ≤ s.minTr
  cleaned : s.cleaned ≤ s.minRet
  free : lockFree s = true → s.written = s.wip
  umX : ∀ u x, s.um = some u → u.pc.cx = some x → x ≤ s.used
  umB : ∀ u b, s.um = some u → u.pc.cb = some b → b ≤ s.used
  umA : ∀ u a b, s.um = some u → u.pc.ca = some a → u.pc.cb = some b → a ≤ b
  umPub3 : ∀ u b, s.um = some u → u.pc = .pub3 b → s.minRet ≤ max s.minTr b
  umRaise : ∀ u, s.um = some u → u.pc = .raise → s.ev = none ∧ s.wip = s.minRet
  umTail : ∀ u, s.um = some u → u.pc = .tail ∨ u.pc = .clean ∨ u.pc = .raise → u.ev = false
  umHeld : ∀ u, s.um = some u → u.pc = .held → u.ev = true
  umEv : ∀ u, s.um = some u → u.ev = true → ∃ e, s.ev = some e ∧ (e.pc = .um ∨ e.pc = .early)
  evTarget : ∀ e, s.ev = some e → e.target ≤ e.m
  evM : ∀ e, s.ev = some e → e.m ≤ s.used
  evTgt : ∀ e t, s.ev = some e → e.pc.tgt = some t → s.wip = t ∧ e.target ≤ t ∧ t ≤ e.m
  evPos : ∀ e x t, s.ev = some e → e.pc.pos = some x → e.pc.tgt = some t → s.written ≤ x ∧ x ≤ t
  evNoTgt : ∀ e, s.ev = some e → e.pc.tgt = none → e.pc ≠ .early → s.written = s.wip
  evUm : ∀ e, s.ev = some e → e.pc = .um → ∃ u, s.um = some u ∧ u.ev = true
  evEarly : ∀ e, s.ev = some e → e.pc = .early → s.wip = s.minRet ∧ e.target ≤ s.minRet ∧
    ∃ u, s.um = some u ∧ u.pc = .held

/-- Has the scan read the reserved location of process `q`? -/
def UmPc.resSeen (q : Nat) : UmPc → Bool
  | .res i _ _ _ => decide (q < i)
  | .tr i _ _ _ => decide (q ≤ i)
  | .sr i _ _ _ => decide (q ≤ i)
  | .pub1 _ _ _ => true
  | _ => false

/-- Has the scan read the location retained by the transaction of process `q`? -/
def UmPc.trSeen (q : Nat) : UmPc → Bool
  | .res i _ _ _ => decide (q < i)
  | .tr i _ _ _ => decide (q < i)
  | .sr i _ _ _ => decide (q ≤ i)
  | .pub1 _ _ _ => true
  | .pub2 _ _ => true
  | .pub3 _ => true
  | _ => false

/-- What a process still needs of its reservation. -/
def Pc.need : Pc → Option Nat
  | .get0 n _ => some (2 * n)
  | .get1 n _ _ => some (2 * n)
  | .get2 n _ _ => some (2 * n)
  | .get3 n _ _ => some (2 * n)
  | .get4 n _ _ => some (2 * n)
  | .get5 n _ _ => some (2 * n)
  | .alloc n => some (2 * n)
  | .again n _ => some n
  | _ => none

/-- The size of the record wanted. -/
def Pc.want : Pc → Option Nat
  | .get0 n _ => some n
  | .get1 n _ _ => some n
  | .get2 n _ _ => some n
  | .get3 n _ _ => some n
  | .get4 n _ _ => some n
  | .get5 n _ _ => some n
  | .alloc n => some n
  | .again n _ => some n
  | _ => none

/-- The process has published a reserved location. -/
def Pc.hasRes : Pc → Bool
  | .get2 _ _ _ => true
  | .get3 _ _ _ => true
  | .get4 _ _ _ => true
  | .get5 _ _ _ => true
  | .alloc _ => true
  | .again _ _ => true
  | .fill _ _ _ => true
  | .made _ _ => true
  | _ => false

/-- The process has published a location retained by its transaction. -/
def Pc.hasTr : Pc → Bool
  | .get0 _ o => !o
  | .get1 _ o _ => !o
  | .get2 _ o _ => !o
  | .get3 _ _ _ => true
  | .get4 _ _ _ => true
  | .get5 _ _ _ => true
  | .alloc _ => true
  | .again _ _ => true
  | .fill _ _ _ => true
  | .made _ _ => true
  | _ => false

/-- The location that must not be passed for the sake of a process that allocates or fills a
record. -/
def Pc.pinLoc : Pc → Option Nat
  | .again _ l => some l
  | .fill loc _ _ => some loc
  | .made loc _ => some loc
  | _ => none

/-- What holds of every process: `pc`, `tr`, `res`, `sz` are its own, `used` and `recs` are
shared. -/
structure POk (c : Cfg) (used : Nat) (recs : List Rec) (pc : Pc) (tr res : Option Nat)
    (sz : Nat) : Prop where
  held : ∀ m, pc.heldM = some m → m ≤ used
  bgWant : ∀ t m, pc = .bgWant t m → t ≤ m
  ready : ∀ t m, pc.readyM = some (t, m) → t ≤ m + c.size
  own : ∀ t, tr = some t → t ≤ used
  ownRes : ∀ t, res = some t → t ≤ used
  toPub : ∀ l, pc.toPub = some l → l ≤ used
  made : ∀ r, pc.making = some r → r ∈ recs
  need : ∀ n, pc.need = some n → n ≤ sz
  want : ∀ n, pc.want = some n → 0 < n ∧ n < c.size
  hasRes : pc.hasRes = true → ∃ l, res = some l
  hasTr : pc.hasTr = true → ∃ l, tr = some l
  again : ∀ n l, pc = .again n l → l + n ≤ used ∧ (l + n) % c.size ≤ l % c.size
  fill : ∀ loc n j, pc = .fill loc n j → j < n

/-- Nothing passes location `x`, which process `q` needs. -/
structure Pin (s : St) (q x : Nat) : Prop where
  res : ∃ l, s.res q = some l ∧ l ≤ x
  tr : ∃ l, s.tr q = some l ∧ l ≤ x
  minRes : s.minRes ≤ x
  minRet : s.minRet ≤ x
  wip : s.wip ≤ x
  held : ∀ p m, (s.pc p).heldM = some m → m ≤ x
  ev : ∀ e, s.ev = some e → e.m ≤ x
  umX : ∀ u y, s.um = some u → u.pc.cx = some y → u.pc.resSeen q = true → y ≤ x
  umA : ∀ u a, s.um = some u → u.pc.ca = some a → u.pc.trSeen q = true → a ≤ x

/-- Shared memory is in order, and so is every process. -/
structure Base (c : Cfg) (s : St) : Prop where
  marks : Marks c s
  proc : ∀ p, POk c s.used s.recs (s.pc p) (s.tr p) (s.res p) (s.sz p)
  pin : ∀ q x, (s.pc q).pinLoc = some x → q < c.procs ∧ Pin s q x
  recs : ∀ r, r ∈ s.recs → r.loc + r.n ≤ s.used

end Verif.UndoLog
