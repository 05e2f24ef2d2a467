/-
One row: its chain on the live page and on the images of the page, and what they have
to do with the changes made.
-/
import Verif.Visible.Chain

namespace Verif.Visible

/-- The images of a page as far as one row is concerned: the `csn` of the page before
the operation and the row on it (`none`: the image is differential, the row is the one
on the newer page). -/
abbrev KH := List (Nat × Option Chain)

/-- The row in the images of a page. -/
def kh : Hist → Nat → KH
  | .nil, _ => []
  | .full csn _ its older, k => (csn, some (get its k)) :: kh older k
  | .splitDiff _ csn older, k => (csn, none) :: kh older k
  | .merge lcsn lhk lits lolder rcsn _ rits rolder, k =>
    if lhk ≤ k then (rcsn, some (get rits k)) :: kh rolder k
    else (lcsn, some (get lits k)) :: kh lolder k
  | .mergeDiff b lcsn lolder rcsn rolder, k =>
    if b ≤ k then (rcsn, none) :: kh rolder k else (lcsn, none) :: kh lolder k

/-- The row on the image a snapshot reads. -/
def pick (c : Nat) : Chain → KH → Chain
  | A, [] => A
  | A, (l, o) :: t => if c ≤ l then pick c (o.getD A) t else o.getD A

theorem get_filter_key {p : Nat → Bool} {k : Nat} (h : p k = true) : ∀ (its : Items),
    get (its.filter (fun r => p r.1)) k = get its k
  | [] => rfl
  | (j, c) :: t => by
    have ih := get_filter_key h t
    by_cases e : j = k
    · subst e; simp [List.filter_cons, h, get]
    · by_cases hp : p j = true
      · simp [List.filter_cons, hp, get, e, ih]
      · simp [List.filter_cons, hp, get, e, ih]

theorem get_below {m k : Nat} (h : k < m) (its : Items) : get (below m its) k = get its k :=
  get_filter_key (p := fun j => decide (j < m)) (by simpa using h) its

theorem get_above {m k : Nat} (h : m ≤ k) (its : Items) : get (above m its) k = get its k :=
  get_filter_key (p := fun j => !decide (j < m)) (by simp; omega) its

theorem readUndo_get (c k : Nat) : ∀ (h : Hist) (im : Img),
    get (readUndo c k h im).items k = pick c (get im.items k) (kh h k) := by
  intro h
  induction h with
  | nil => intro im; rfl
  | full csn hk its older ih =>
    intro im
    simp only [readUndo, kh, pick, Option.getD_some]
    split
    · rw [ih]
    · rfl
  | splitDiff m csn older ih =>
    intro im
    simp only [readUndo, kh, pick, Option.getD_none]
    split
    · rw [ih]
    · rfl
  | merge lcsn lhk lits lolder rcsn rhk rits rolder ihl ihr =>
    intro im
    simp only [readUndo, kh]
    split <;> simp only [pick, Option.getD_some] <;> split
    · rw [ihr]
    · rfl
    · rw [ihl]
    · rfl
  | mergeDiff b lcsn lolder rcsn rolder ihl ihr =>
    intro im
    simp only [readUndo, kh]
    split
    · next hb =>
      simp only [pick, Option.getD_none]
      split
      · rw [ihr]; simp only [get_above hb]
      · simp only [get_above hb]
    · next hb =>
      have hb' : k < b := by omega
      simp only [pick, Option.getD_none]
      split
      · rw [ihl]; simp only [get_below hb']
      · simp only [get_below hb']

/-- The versions of a chain that were not rolled back. -/
def alive (dead : Ver → Bool) (A : Chain) : Chain := A.filter (fun e => !e.lock && !dead e)

/-- One page or image of a row with chain `A`, against the changes `H` made to the row
(newest first).  `sy`: the chain is that of the live page.  `pc`: the `csn` of the page
operation that put the image away; `low`: the `csn` of the page in the image. -/
structure Lev (st : Nat → Status) (oldest : Nat) (H : List Ver) (dead : Ver → Bool)
    (sy : Bool) (pc low : Nat) (A : Chain) : Prop where
  dec : ∃ new old, H = new ++ (alive dead A ++ old) ∧ (sy = true → new = []) ∧
    (∀ e ∈ new, commBefore st pc e.oxid = false) ∧
    (old = [] ∨ ∃ e r, old = e :: r ∧ e.del = true ∧ commBefore st (max low oldest) e.oxid = true)
  deads : ∀ e ∈ A, e.lock = false → dead e = true → sy = false ∧ commBefore st pc e.oxid = false
  locks : LockOK st (underTop A)

/-- The live page and all images. -/
def Levs (st : Nat → Status) (next oldest : Nat) (H : List Ver) (dead : Ver → Bool) :
    Bool → Nat → Nat → Chain → KH → Prop
  | sy, pc, low, A, [] => Lev st oldest H dead sy pc low A ∧ low = 0
  | sy, pc, low, A, (l, o) :: t =>
    Lev st oldest H dead sy pc low A ∧ low < next ∧
    match o with
    | none => Levs st next oldest H dead sy low l A t
    | some A' => Levs st next oldest H dead false low l A' t

theorem Levs.head {st : Nat → Status} {next oldest : Nat} {H : List Ver} {dead : Ver → Bool}
    {sy : Bool} {pc low : Nat} {A : Chain} {t : KH} (L : Levs st next oldest H dead sy pc low A t) :
    Lev st oldest H dead sy pc low A := by
  cases t with
  | nil => exact L.1
  | cons a t => obtain ⟨l, o⟩ := a; exact L.1

/-- A change of everything at once. -/
theorem Levs.map {st st' : Nat → Status} {next next' oldest oldest' : Nat} {H H' : List Ver}
    {dead dead' : Ver → Bool} {cur cur' : Chain} (hn : next ≤ next')
    (f : ∀ sy pc low A, pc ≤ next → (sy = true → A = cur) → Lev st oldest H dead sy pc low A →
      Lev st' oldest' H' dead' sy pc low (if sy then cur' else A)) :
    ∀ (t : KH) (sy : Bool) (pc low : Nat) (A : Chain), pc ≤ next → (sy = true → A = cur) →
      Levs st next oldest H dead sy pc low A t →
      Levs st' next' oldest' H' dead' sy pc low (if sy then cur' else A) t
  | [], sy, pc, low, A, hp, hA, h => ⟨f sy pc low A hp hA h.1, h.2⟩
  | (l, none) :: t, sy, pc, low, A, hp, hA, h => by
    refine ⟨f sy pc low A hp hA h.1, Nat.lt_of_lt_of_le h.2.1 hn, ?_⟩
    exact Levs.map hn f t sy low l A (Nat.le_of_lt h.2.1) hA h.2.2
  | (l, some A') :: t, sy, pc, low, A, hp, hA, h => by
    refine ⟨f sy pc low A hp hA h.1, Nat.lt_of_lt_of_le h.2.1 hn, ?_⟩
    have := Levs.map hn f t false low l A' (Nat.le_of_lt h.2.1) (by simp) h.2.2
    simpa using this

/-- What the reader sees on the page or image its snapshot reads. -/
theorem Lev.read {st : Nat → Status} {oldest : Nat} {H : List Ver} {dead : Ver → Bool}
    {sy : Bool} {pc low : Nat} {A : Chain} {sn : Snap} (L : Lev st oldest H dead sy pc low A)
    (hlow : low < sn.csn) (hold : oldest ≤ sn.csn)
    (hs : sy = true ∨ (sn.csn ≤ pc ∧ (∀ e ∈ H, e.oxid ≠ sn.oxid) ∧
      ∀ e, dead e = true → e.oxid ≠ sn.oxid)) :
    findVersion st sn A = firstSeen st sn H := by
  rw [findVersion_plain L.locks]
  obtain ⟨new, old, hH, hnew, hnc, hold'⟩ := L.dec
  have mono : ∀ {c d x : Nat}, c ≤ d → commBefore st d x = false → commBefore st c x = false := by
    intro c d x h h'
    unfold commBefore at h' ⊢
    cases hq : st x with
    | committed q => rw [hq] at h'; simp at h' ⊢; omega
    | running => rfl
    | aborted => rfl
  have mono' : ∀ {c d x : Nat}, c ≤ d → commBefore st c x = true → commBefore st d x = true := by
    intro c d x h h'
    unfold commBefore at h' ⊢
    cases hq : st x with
    | committed q => rw [hq] at h'; simp at h' ⊢; omega
    | running => rw [hq] at h'; simp at h'
    | aborted => rw [hq] at h'; simp at h'
  have h1 : firstSeen st sn (plain A) = firstSeen st sn (alive dead A) := by
    have : alive dead A = (plain A).filter (fun e => !dead e) := by
      simp only [alive, plain, List.filter_filter]
      congr 1; funext e; rw [Bool.and_comm]
    rw [this]
    refine (firstSeen_filter ?_).symm
    intro e he hd
    have hd' : dead e = true := by simpa using hd
    obtain ⟨he1, he2⟩ := mem_plain.1 he
    obtain ⟨hsy, hc⟩ := L.deads e he1 he2 hd'
    rcases hs with hs | ⟨hpc, _, hdd⟩
    · rw [hs] at hsy; simp at hsy
    · have := hdd e hd'
      simp [stopsAt, this, mono hpc hc]
  rw [h1, hH, firstSeen_append, firstSeen_old]
  · rcases hold' with h | ⟨e, r, h, hd, hc⟩
    · exact Or.inl h
    · refine Or.inr ⟨e, r, h, hd, ?_⟩
      have : commBefore st sn.csn e.oxid = true := mono' (by omega) hc
      simp [stopsAt, this]
  · intro e he
    rcases hs with hs | ⟨hpc, hHx, _⟩
    · rw [hnew hs] at he; simp at he
    · have h2 : e.oxid ≠ sn.oxid := hHx e (by rw [hH]; simp [he])
      simp [stopsAt, h2, mono hpc (hnc e he)]

/-- What the reader sees on the image its snapshot reads. -/
theorem Levs.read {st : Nat → Status} {next oldest : Nat} {H : List Ver} {dead : Ver → Bool}
    {sn : Snap} (hc : 0 < sn.csn) (hold : oldest ≤ sn.csn) (hH : ∀ e ∈ H, e.oxid ≠ sn.oxid)
    (hd : ∀ e, dead e = true → e.oxid ≠ sn.oxid) :
    ∀ (t : KH) (sy : Bool) (pc low : Nat) (A : Chain),
      Levs st next oldest H dead sy pc low A t → sn.csn ≤ low →
      findVersion st sn (pick sn.csn A t) = firstSeen st sn H
  | [], sy, pc, low, A, h, hl => by rw [h.2] at hl; omega
  | (l, none) :: t, sy, pc, low, A, h, hl => by
    simp only [pick, Option.getD_none]
    split
    · next hle => exact Levs.read hc hold hH hd t sy low l A h.2.2 hle
    · next hlt => exact h.2.2.head.read (by omega) hold (Or.inr ⟨hl, hH, hd⟩)
  | (l, some A') :: t, sy, pc, low, A, h, hl => by
    simp only [pick, Option.getD_some]
    split
    · next hle => exact Levs.read hc hold hH hd t false low l A' h.2.2 hle
    · next hlt => exact h.2.2.head.read (by omega) hold (Or.inr ⟨hl, hH, hd⟩)

/-- All that is known of one row. -/
structure K (st : Nat → Status) (next oldest loc : Nat) (undo : Nat → Bool) (H : List Ver)
    (dead : Ver → Bool) (csn : Nat) (cur : Chain) (t : KH) : Prop where
  levs : Levs st next oldest H dead true 0 csn cur t
  low : csn < next
  excl : H.Pairwise (fun a b => st b.oxid = .running → a.oxid = b.oxid)
  hs : ∀ e ∈ H, e.lock = false ∧ e.loc < loc ∧ undo e.oxid = true ∧ dead e = false ∧ st e.oxid ≠ .aborted
  order : cur.Pairwise (fun a b => b.loc < a.loc)
  clt : ∀ e ∈ cur, e.loc < loc
  top : TopLocks st cur

/-- The changes made are those on the live page and older ones. -/
theorem K.split {st : Nat → Status} {next oldest loc : Nat} {undo : Nat → Bool} {H : List Ver}
    {dead : Ver → Bool} {csn : Nat} {cur : Chain} {t : KH}
    (I : K st next oldest loc undo H dead csn cur t) :
    ∃ old, H = plain cur ++ old ∧
      (old = [] ∨ ∃ e r, old = e :: r ∧ e.del = true ∧ commBefore st (max csn oldest) e.oxid = true) := by
  have L := I.levs.head
  obtain ⟨new, old, hH, hnew, _, ho⟩ := L.dec
  have : alive dead cur = plain cur := by
    unfold alive plain
    apply List.filter_congr
    intro e he
    cases hl : e.lock with
    | true => rfl
    | false =>
      cases hd : dead e with
      | true => have := (L.deads e he hl hd).1; simp at this
      | false => rfl
  rw [hnew rfl, this] at hH
  exact ⟨old, by simpa using hH, ho⟩

/-- The newest version on the live page decides whose the row is. -/
theorem K.top_own {st : Nat → Status} {next oldest loc : Nat} {undo : Nat → Bool} {H : List Ver}
    {dead : Ver → Bool} {csn : Nat} {cur : Chain} {t : KH} {x : Nat}
    (I : K st next oldest loc undo H dead csn cur t) (hx : st x = .running)
    (h : ∀ w, (plain cur).head? = some w → w.oxid ≠ x) : ∀ e ∈ H, e.oxid ≠ x := by
  obtain ⟨old, hH, ho⟩ := I.split
  have key : ∀ w r, H = w :: r → w.oxid ≠ x → ∀ e ∈ H, e.oxid ≠ x := by
    intro w r hw hne e he hex
    have ex := I.excl
    rw [hw] at he ex
    rcases List.mem_cons.1 he with rfl | he
    · exact hne hex
    · exact hne (((List.pairwise_cons.1 ex).1 e he (by rw [hex]; exact hx)).trans hex)
  cases hp : plain cur with
  | cons w r =>
    rw [hp] at hH
    exact key w (r ++ old) (by simpa using hH) (h w (by simp [hp]))
  | nil =>
    rw [hp] at hH
    rcases ho with ho | ⟨e, r, ho, _, hc⟩
    · intro e he; rw [hH, ho] at he; simp at he
    · refine key e r (by rw [hH, ho]; rfl) ?_
      intro hex; rw [commBefore, hex, hx] at hc; simp at hc

theorem commBefore_mono {st : Nat → Status} {c d x : Nat} (h : c ≤ d)
    (h' : commBefore st c x = true) : commBefore st d x = true := by
  unfold commBefore at h' ⊢
  cases hq : st x with
  | committed q => rw [hq] at h'; simp at h' ⊢; omega
  | running => rw [hq] at h'; simp at h'
  | aborted => rw [hq] at h'; simp at h'

theorem old_mono {st st' : Nat → Status} {n c d : Nat} {old : List Ver} (A : Adv n st st') (h : c ≤ d)
    (ho : old = [] ∨ ∃ e r, old = e :: r ∧ e.del = true ∧ commBefore st c e.oxid = true) :
    old = [] ∨ ∃ e r, old = e :: r ∧ e.del = true ∧ commBefore st' d e.oxid = true := by
  rcases ho with ho | ⟨e, r, ho, hd, hc⟩
  · exact Or.inl ho
  · exact Or.inr ⟨e, r, ho, hd, commBefore_mono h (A.comm hc)⟩

/-- Transactions end, old snapshots are given up: one page or image. -/
theorem Lev.adv {st st' : Nat → Status} {next oldest oldest' : Nat} {H : List Ver} {dead : Ver → Bool}
    {sy : Bool} {pc low : Nat} {B : Chain} (L : Lev st oldest H dead sy pc low B) (A : Adv next st st')
    (hn : ∀ y q, st y = .committed q → q < next) (h2 : oldest ≤ oldest') (hpc : pc ≤ next) :
    Lev st' oldest' H dead sy pc low B := by
  obtain ⟨new, old, hH, hnew, hnc, ho⟩ := L.dec
  refine ⟨⟨new, old, hH, hnew, fun e he => A.notComm hpc (hnc e he), old_mono A (by omega) ho⟩, ?_,
    L.locks.adv A hn⟩
  intro e he hl hd
  exact ⟨(L.deads e he hl hd).1, A.notComm hpc (L.deads e he hl hd).2⟩

/-- Transactions end, old snapshots are given up. -/
theorem K.adv {st st' : Nat → Status} {next next' oldest oldest' loc : Nat} {undo : Nat → Bool}
    {H : List Ver} {dead : Ver → Bool} {csn : Nat} {cur : Chain} {t : KH}
    (I : K st next oldest loc undo H dead csn cur t) (A : Adv next st st')
    (hn : ∀ y q, st y = .committed q → q < next) (h1 : next ≤ next') (h2 : oldest ≤ oldest')
    (hab : ∀ e ∈ H, st' e.oxid ≠ .aborted) :
    K st' next' oldest' loc undo H dead csn cur t := by
  refine ⟨?_, Nat.lt_of_lt_of_le I.low h1, ?_, ?_, I.order, I.clt, I.top.adv A⟩
  · have := Levs.map (st' := st') (oldest' := oldest') (H' := H) (dead' := dead) (cur := cur) (cur' := cur)
      h1 ?_ t true 0 csn cur (Nat.zero_le _) (fun _ => rfl) I.levs
    · simpa using this
    · intro sy pc low B hpc hB L
      have hBe : (if sy = true then cur else B) = B := by
        cases sy with
        | true => simp [hB rfl]
        | false => simp
      rw [hBe]
      exact L.adv A hn h2 hpc
  · refine List.Pairwise.imp ?_ I.excl
    intro a b h hr
    apply h
    by_cases hq : st b.oxid = .running
    · exact hq
    · rw [(A _).1 hq] at hr; exact hr
  · intro e he
    have := I.hs e he
    exact ⟨this.1, this.2.1, this.2.2.1, this.2.2.2.1, hab e he⟩

/-- Removing locks of the others that are finished. -/
theorem Cut.purge (st : Nat → Status) (x : Nat) (c : Chain) :
    Cut st (fun e => !(e.lock && finished st e.oxid && decide (e.oxid ≠ x))) c :=
  ⟨fun a _ b _ h hl => by simp [hl] at h, fun a _ h hl => by simp [hl] at h⟩

theorem plain_purge (st : Nat → Status) (x : Nat) (c : Chain) : plain (purge st x c) = plain c := by
  unfold purge
  rw [plain_filter]
  apply List.filter_eq_self.2
  intro e he
  simp [(mem_plain.1 he).2]

theorem alive_purge (st : Nat → Status) (x : Nat) (dead : Ver → Bool) (c : Chain) :
    alive dead (purge st x c) = alive dead c := by
  unfold alive purge
  rw [List.filter_filter]
  apply List.filter_congr
  intro e _
  cases e.lock <;> simp

/-- A purge changes nothing that matters: the live page. -/
theorem Lev.purge {st : Nat → Status} {oldest : Nat} {H : List Ver} {dead : Ver → Bool}
    {sy : Bool} {pc low : Nat} {B : Chain} (L : Lev st oldest H dead sy pc low B) (x : Nat) :
    Lev st oldest H dead sy pc low (Visible.purge st x B) := by
  obtain ⟨new, old, hH, hnew, hnc, ho⟩ := L.dec
  refine ⟨⟨new, old, ?_, hnew, hnc, ho⟩, fun e he => L.deads e (List.mem_filter.1 he).1, ?_⟩
  · simpa [alive_purge] using hH
  · exact L.locks.cut (Cut.purge st x B)

/-- A purge changes nothing that matters. -/
theorem K.purge {st : Nat → Status} {next oldest loc : Nat} {undo : Nat → Bool} {H : List Ver}
    {dead : Ver → Bool} {csn : Nat} {cur : Chain} {t : KH} (x : Nat)
    (I : K st next oldest loc undo H dead csn cur t) :
    K st next oldest loc undo H dead csn (purge st x cur) t := by
  have C := Cut.purge st x cur
  refine ⟨?_, I.low, I.excl, I.hs, I.order.filter _, fun e he => I.clt e (List.mem_filter.1 he).1,
    I.top.filter C I.levs.head.locks⟩
  have := Levs.map (st' := st) (oldest' := oldest) (H' := H) (dead' := dead) (cur := cur)
    (cur' := Visible.purge st x cur)
    (Nat.le_refl next) ?_ t true 0 csn cur (Nat.zero_le _) (fun _ => rfl) I.levs
  · simpa using this
  · intro sy pc low B hpc hB L
    cases sy with
    | false => simpa using L
    | true =>
      have := hB rfl; subst this
      exact L.purge x

/-- The row is locked: the live page. -/
theorem Lev.lock {st : Nat → Status} {oldest : Nat} {H : List Ver} {dead : Ver → Bool}
    {sy : Bool} {pc low : Nat} {B : Chain} {z : Ver} (L : Lev st oldest H dead sy pc low B)
    (hz : z.lock = true) : Lev st oldest H dead sy pc low (z :: B) := by
  obtain ⟨new, old, hH, hnew, hnc, ho⟩ := L.dec
  refine ⟨⟨new, old, ?_, hnew, hnc, ho⟩, ?_, ?_⟩
  · simpa [alive, hz] using hH
  · intro e he h1 h2
    rcases List.mem_cons.1 (by simpa using he) with rfl | he
    · rw [hz] at h1; simp at h1
    · exact L.deads e he h1 h2
  · simpa [underTop, skipLocks, hz] using L.locks

/-- The row is locked. -/
theorem K.lock {st : Nat → Status} {next oldest loc : Nat} {undo undo' : Nat → Bool} {H : List Ver}
    {dead : Ver → Bool} {csn : Nat} {cur : Chain} {t : KH} {z : Ver}
    (I : K st next oldest loc undo H dead csn cur t) (hz : z.lock = true) (hd : z.del = false)
    (hl : z.loc = loc) (hm : mayLock st z.oxid cur = true)
    (hu : ∀ y, undo y = true → undo' y = true) :
    K st next oldest (loc + 1) undo' H dead csn (z :: cur) t := by
  refine ⟨?_, I.low, I.excl, ?_, ?_, ?_, ?_⟩
  · have := Levs.map (st' := st) (oldest' := oldest) (H' := H) (dead' := dead) (cur := cur)
      (cur' := z :: cur)
      (Nat.le_refl next) ?_ t true 0 csn cur (Nat.zero_le _) (fun _ => rfl) I.levs
    · simpa using this
    · intro sy pc low B hpc hB L
      cases sy with
      | false => simpa using L
      | true =>
        have := hB rfl; subst this
        exact L.lock hz
  · intro e he
    have := I.hs e he
    exact ⟨this.1, by omega, hu _ this.2.2.1, this.2.2.2⟩
  · refine List.pairwise_cons.2 ⟨fun e he => ?_, I.order⟩
    have := I.clt e he; omega
  · intro e he
    rcases List.mem_cons.1 he with rfl | he
    · omega
    · have := I.clt e he; omega
  · intro _
    exact ⟨hd, Lk.of_mayLock rfl (fun e he => by have := I.clt e he; omega) hm, I.top⟩

/-- The row is changed: an image. -/
theorem Lev.writeOld {st : Nat → Status} {oldest : Nat} {H : List Ver} {dead : Ver → Bool}
    {pc low : Nat} {B : Chain} {e : Ver} (L : Lev st oldest H dead false pc low B)
    (hr : st e.oxid = .running) : Lev st oldest (e :: H) dead false pc low B := by
  have hnc : ∀ p, commBefore st p e.oxid = false := by intro p; rw [commBefore, hr]
  obtain ⟨new, old, hH, hnew, hncc, ho⟩ := L.dec
  refine ⟨⟨e :: new, old, ?_, by simp, ?_, ho⟩, L.deads, L.locks⟩
  · simp [hH]
  · intro f hf
    rcases List.mem_cons.1 hf with rfl | hf
    · exact hnc _
    · exact hncc f hf

/-- The row is changed: the live page. -/
theorem Lev.writeTop {st : Nat → Status} {oldest : Nat} {H : List Ver} {dead : Ver → Bool}
    {pc low : Nat} {B : Chain} {e : Ver} (L : Lev st oldest H dead true pc low B)
    (hk : e.lock = false) (hdead : dead e = false) (hlk : LockOK st B) :
    Lev st oldest (e :: H) dead true pc low (e :: B) := by
  obtain ⟨new, old, hH, hnew, hncc, ho⟩ := L.dec
  refine ⟨⟨[], old, ?_, fun _ => rfl, by simp, ho⟩, ?_, ?_⟩
  · rw [hnew rfl] at hH
    simp only [alive, List.filter_cons, hk, hdead]
    simpa [alive] using hH
  · intro f hf h1 h2
    rcases List.mem_cons.1 hf with rfl | hf
    · rw [hdead] at h2; simp at h2
    · exact L.deads f hf h1 h2
  · simpa [underTop, skipLocks, hk] using hlk

/-- The row is changed. -/
theorem K.write {st : Nat → Status} {next oldest loc : Nat} {undo undo' : Nat → Bool} {H : List Ver}
    {dead : Ver → Bool} {csn : Nat} {cur : Chain} {t : KH} {e : Ver}
    (I : K st next oldest loc undo H dead csn cur t) (hk : e.lock = false)
    (hl : e.loc = loc) (hr : st e.oxid = .running) (hdead : dead e = false)
    (hm : ∀ w, (plain cur).head? = some w → w.oxid = e.oxid ∨ finished st w.oxid = true)
    (hlk : LockOK st cur)
    (hu : ∀ y, undo y = true → undo' y = true) (hu' : undo' e.oxid = true) :
    K st next oldest (loc + 1) undo' (e :: H) dead csn (e :: cur) t := by
  refine ⟨?_, I.low, ?_, ?_, ?_, ?_, ?_⟩
  · have := Levs.map (st' := st) (oldest' := oldest) (H' := e :: H) (dead' := dead) (cur := cur)
      (cur' := e :: cur)
      (Nat.le_refl next) ?_ t true 0 csn cur (Nat.zero_le _) (fun _ => rfl) I.levs
    · simpa using this
    · intro sy pc low B hpc hB L
      cases sy with
      | false => exact L.writeOld hr
      | true =>
        have := hB rfl; subst this
        exact L.writeTop hk hdead hlk
  · refine List.pairwise_cons.2 ⟨?_, I.excl⟩
    intro f hf hfr
    apply Classical.byContradiction
    intro hne
    obtain ⟨old, hH, ho⟩ := I.split
    have key : ∀ w r, H = w :: r → (w.oxid = e.oxid ∨ finished st w.oxid = true) → False := by
      intro w r hw hor
      have ex := I.excl
      rw [hw] at hf ex
      have hfw : f.oxid = w.oxid := by
        rcases List.mem_cons.1 hf with rfl | hf
        · rfl
        · exact ((List.pairwise_cons.1 ex).1 f hf hfr).symm
      rcases hor with h | h
      · exact hne (by rw [hfw, h])
      · rw [← hfw, finished, hfr] at h; simp at h
    cases hp : plain cur with
    | cons w r =>
      rw [hp] at hH
      exact key w (r ++ old) (by simpa using hH) (hm w (by simp [hp]))
    | nil =>
      rw [hp] at hH
      rcases ho with ho | ⟨w, r, ho, _, hc⟩
      · rw [hH, ho] at hf; simp at hf
      · refine key w r (by rw [hH, ho]; rfl) (Or.inr ?_)
        unfold commBefore at hc; unfold finished
        cases hq : st w.oxid with
        | running => rw [hq] at hc; simp at hc
        | committed q => rfl
        | aborted => rfl
  · intro f hf
    rcases List.mem_cons.1 hf with rfl | hf
    · exact ⟨hk, by omega, hu', hdead, by rw [hr]; simp⟩
    · have := I.hs f hf
      exact ⟨this.1, by omega, hu _ this.2.2.1, this.2.2.2⟩
  · refine List.pairwise_cons.2 ⟨fun f hf => ?_, I.order⟩
    have := I.clt f hf; omega
  · intro f hf
    rcases List.mem_cons.1 hf with rfl | hf
    · omega
    · have := I.clt f hf; omega
  · intro h; rw [hk] at h; simp at h

theorem undone_oxid {x m : Nat} {e : Ver} (h : undone x m e = true) : e.oxid = x := by
  simp [undone] at h; exact h.1

theorem Cut.undone {st : Nat → Status} {x m : Nat} {c : Chain} (hx : st x = .running) :
    Cut st (fun e => !Visible.undone x m e) c := by
  refine ⟨?_, ?_⟩
  · intro a _ b _ h _ ho hl
    simp only [Visible.undone, Bool.not_eq_false', Bool.and_eq_true, decide_eq_true_eq] at h ⊢
    exact ⟨by rw [← ho]; exact h.1, by omega⟩
  · intro a _ h _
    rw [undone_oxid (e := a) (x := x) (m := m) (by simpa using h)]; exact hx

theorem alive_undo {dead : Ver → Bool} {x m loc : Nat} {B : Chain}
    (hB : ∀ e ∈ B, e.lock = false → dead e = false → e.loc < loc) :
    alive (fun e => dead e || (undone x m e && decide (e.loc < loc))) B =
      (alive dead B).filter (fun e => !undone x m e) := by
  unfold alive
  rw [List.filter_filter]
  apply List.filter_congr
  intro e he
  have := hB e he
  cases h1 : e.lock with
  | true => simp
  | false =>
    cases h2 : dead e with
    | true => simp [h2]
    | false => simp [h2, this h1 h2]

theorem old_undo {st : Nat → Status} {x m c : Nat} {old : List Ver} (hx : st x = .running)
    (ho : old = [] ∨ ∃ e r, old = e :: r ∧ e.del = true ∧ commBefore st c e.oxid = true) :
    old.filter (fun e => !undone x m e) = [] ∨ ∃ e r,
      old.filter (fun e => !undone x m e) = e :: r ∧ e.del = true ∧ commBefore st c e.oxid = true := by
  rcases ho with ho | ⟨e, r, ho, hd, hc⟩
  · left; rw [ho]; rfl
  · right
    refine ⟨e, r.filter (fun e => !undone x m e), ?_, hd, hc⟩
    have : undone x m e = false := by
      cases hu : undone x m e with
      | false => rfl
      | true => rw [undone_oxid hu, commBefore, hx] at hc; simp at hc
    rw [ho, List.filter_cons, this]; simp

theorem Lev.locLt {st : Nat → Status} {oldest loc : Nat} {H : List Ver} {dead : Ver → Bool}
    {sy : Bool} {pc low : Nat} {B : Chain} (L : Lev st oldest H dead sy pc low B)
    (hHl : ∀ e ∈ H, e.loc < loc) : ∀ e ∈ B, e.lock = false → dead e = false → e.loc < loc := by
  obtain ⟨new, old, hH, _⟩ := L.dec
  intro e he h1 h2
  apply hHl; rw [hH]
  simp only [List.mem_append]
  exact Or.inr (Or.inl (List.mem_filter.2 ⟨he, by simp [h1, h2]⟩))

/-- Changes of a running transaction are rolled back: an image. -/
theorem Lev.undoOld {st : Nat → Status} {oldest loc : Nat} {H : List Ver} {dead : Ver → Bool}
    {pc low : Nat} {B : Chain} {x m : Nat} (L : Lev st oldest H dead false pc low B)
    (hx : st x = .running) (hHl : ∀ e ∈ H, e.loc < loc) :
    Lev st oldest (H.filter (fun e => !undone x m e))
      (fun e => dead e || (undone x m e && decide (e.loc < loc))) false pc low B := by
  have hBl := L.locLt hHl
  obtain ⟨new, old, hH, hnew, hncc, ho⟩ := L.dec
  refine ⟨⟨new.filter (fun e => !undone x m e), old.filter (fun e => !undone x m e), ?_, by simp,
    fun e he => hncc e (List.mem_filter.1 he).1, old_undo hx ho⟩, ?_, L.locks⟩
  · rw [alive_undo hBl, hH, List.filter_append, List.filter_append]
  · intro e he h1 h2
    refine ⟨rfl, ?_⟩
    simp only [Bool.or_eq_true, Bool.and_eq_true] at h2
    rcases h2 with h2 | h2
    · exact (L.deads e he h1 h2).2
    · rw [undone_oxid h2.1, commBefore, hx]

/-- Changes of a running transaction are rolled back: the live page. -/
theorem Lev.undoTop {st : Nat → Status} {oldest loc : Nat} {H : List Ver} {dead : Ver → Bool}
    {pc low : Nat} {B : Chain} {x m : Nat} (L : Lev st oldest H dead true pc low B)
    (hx : st x = .running) (hHl : ∀ e ∈ H, e.loc < loc) :
    Lev st oldest (H.filter (fun e => !undone x m e))
      (fun e => dead e || (undone x m e && decide (e.loc < loc))) true pc low
      (B.filter (fun e => !undone x m e)) := by
  have hBl := L.locLt hHl
  obtain ⟨new, old, hH, hnew, hncc, ho⟩ := L.dec
  have hBd : ∀ e ∈ B, e.lock = false → dead e = false := by
    intro e he h1
    cases h2 : dead e with
    | false => rfl
    | true => have := (L.deads e he h1 h2).1; simp at this
  refine ⟨⟨[], old.filter (fun e => !undone x m e), ?_, fun _ => rfl, by simp, old_undo hx ho⟩, ?_,
    L.locks.cut (Cut.undone hx)⟩
  · rw [alive_undo (fun e he h1 h2 => hBl e (List.mem_filter.1 he).1 h1 h2), hH, hnew rfl]
    simp only [List.nil_append, List.filter_append]
    congr 1
    unfold alive
    rw [List.filter_filter, List.filter_filter, List.filter_filter]
    apply List.filter_congr
    intro e _
    cases undone x m e <;> simp
  · intro e he h1 h2
    obtain ⟨he1, he2⟩ := List.mem_filter.1 he
    have := hBd e he1 h1
    simp only [Bool.not_eq_true'] at he2
    simp [this, he2] at h2

/-- Changes of a running transaction are rolled back. -/
theorem K.undo {st : Nat → Status} {next oldest loc : Nat} {undo : Nat → Bool} {H : List Ver}
    {dead : Ver → Bool} {csn : Nat} {cur : Chain} {t : KH} {x m : Nat}
    (I : K st next oldest loc undo H dead csn cur t) (hx : st x = .running) :
    K st next oldest loc undo (H.filter (fun e => !undone x m e))
      (fun e => dead e || (undone x m e && decide (e.loc < loc))) csn
      (cur.filter (fun e => !undone x m e)) t := by
  have C := Cut.undone (m := m) (c := cur) hx
  have hHl : ∀ e ∈ H, e.loc < loc := fun e he => (I.hs e he).2.1
  refine ⟨?_, I.low, I.excl.filter _, ?_, I.order.filter _, fun e he => I.clt e (List.mem_filter.1 he).1,
    I.top.filter C I.levs.head.locks⟩
  · have := Levs.map (st' := st) (oldest' := oldest) (H' := H.filter (fun e => !undone x m e))
      (dead' := fun e => dead e || (undone x m e && decide (e.loc < loc))) (cur := cur)
      (cur' := cur.filter (fun e => !undone x m e))
      (Nat.le_refl next) ?_ t true 0 csn cur (Nat.zero_le _) (fun _ => rfl) I.levs
    · simpa using this
    · intro sy pc low B hpc hB L
      cases sy with
      | false => exact L.undoOld hx hHl
      | true =>
        have := hB rfl; subst this
        exact L.undoTop hx hHl
  · intro e he
    obtain ⟨he1, he2⟩ := List.mem_filter.1 he
    have h := I.hs e he1
    simp only [Bool.not_eq_true'] at he2
    exact ⟨h.1, h.2.1, h.2.2.1, by simp [h.2.2.2.1, he2], h.2.2.2.2⟩

/-- A page operation that keeps the row, with a differential image. -/
theorem K.diff {st : Nat → Status} {next oldest loc : Nat} {undo : Nat → Bool} {H : List Ver}
    {dead : Ver → Bool} {csn : Nat} {cur : Chain} {t : KH}
    (I : K st next oldest loc undo H dead csn cur t) :
    K st (next + 1) oldest loc undo H dead next cur ((csn, none) :: t) := by
  have hL := Levs.map (st' := st) (next' := next + 1) (oldest' := oldest) (H' := H) (dead' := dead) (cur := cur)
      (cur' := cur) (Nat.le_succ next) (fun sy pc low B _ hB L => by
        cases sy with
        | false => simpa using L
        | true => have := hB rfl; subst this; simpa using L)
      t true 0 csn cur (Nat.zero_le _) (fun _ => rfl) I.levs
  simp only [if_true] at hL
  have h0 := I.levs.head
  have re : ∀ {pc pc' low low' : Nat} {t : KH}, Levs st (next + 1) oldest H dead true pc low cur t →
      Levs st (next + 1) oldest H dead true pc' low cur t := by
    intro pc pc' low _ t h
    have fix : Lev st oldest H dead true pc low cur → Lev st oldest H dead true pc' low cur := by
      intro L
      obtain ⟨new, old, hH, hnew, _, ho⟩ := L.dec
      have hn := hnew rfl; subst hn
      exact ⟨⟨[], old, hH, fun _ => rfl, by simp, ho⟩,
        fun e he h1 h2 => by have := (L.deads e he h1 h2).1; simp at this, L.locks⟩
    cases t with
    | nil => exact ⟨fix h.1, h.2⟩
    | cons a t =>
      obtain ⟨l, o⟩ := a
      exact ⟨fix h.1, h.2.1, h.2.2⟩
  refine ⟨⟨?_, Nat.lt_succ_self _, re (low' := 0) hL⟩, Nat.lt_succ_self _, I.excl, I.hs, I.order, I.clt, I.top⟩
  obtain ⟨new, old, hH, hnew, hnc, ho⟩ := h0.dec
  exact ⟨⟨new, old, hH, hnew, hnc, old_mono (Adv.refl 0 st) (by have := I.low; omega) ho⟩, h0.deads, h0.locks⟩

/-- A page operation with a full image; the row may be dropped. -/
theorem K.full {st : Nat → Status} {next oldest loc : Nat} {undo : Nat → Bool} {H : List Ver}
    {dead : Ver → Bool} {csn : Nat} {cur : Chain} {t : KH} {fin : Nat}
    (I : K st next oldest loc undo H dead csn cur t) :
    K st (next + 1) oldest loc undo H dead next (if drops st fin next cur then [] else cur)
      ((csn, some cur) :: t) := by
  have hL := Levs.map (st' := st) (next' := next + 1) (oldest' := oldest) (H' := H) (dead' := dead) (cur := cur)
      (cur' := cur) (Nat.le_succ next) (fun sy pc low B _ hB L => by
        cases sy with
        | false => simpa using L
        | true => have := hB rfl; subst this; simpa using L)
      t true 0 csn cur (Nat.zero_le _) (fun _ => rfl) I.levs
  simp only [if_true] at hL
  have h0 := I.levs.head
  have re : ∀ {t : KH} {pc pc' low : Nat} {A : Chain}, Levs st (next + 1) oldest H dead true pc low A t →
      Levs st (next + 1) oldest H dead false pc' low A t := by
    intro t
    have fix : ∀ {pc pc' low : Nat} {A : Chain}, Lev st oldest H dead true pc low A →
        Lev st oldest H dead false pc' low A := by
      intro pc pc' low A L
      obtain ⟨new, old, hH, hnew, _, ho⟩ := L.dec
      have hn := hnew rfl; subst hn
      exact ⟨⟨[], old, hH, fun _ => rfl, by simp, ho⟩,
        fun e he h1 h2 => by have := (L.deads e he h1 h2).1; simp at this, L.locks⟩
    induction t with
    | nil => intro pc pc' low A h; exact ⟨fix h.1, h.2⟩
    | cons a t ih =>
      intro pc pc' low A h
      obtain ⟨l, o⟩ := a
      cases o with
      | none => exact ⟨fix h.1, h.2.1, ih h.2.2⟩
      | some A' => exact ⟨fix h.1, h.2.1, h.2.2⟩
  have hold := re (pc' := next) hL
  by_cases hd : drops st fin next cur = true
  · rw [if_pos hd]
    refine ⟨⟨?_, Nat.lt_succ_self _, hold⟩, Nat.lt_succ_self _, I.excl, I.hs, by simp, by simp, trivial⟩
    obtain ⟨old, hH, ho⟩ := I.split
    refine ⟨⟨[], H, rfl, fun _ => rfl, by simp, ?_⟩, by simp, trivial⟩
    cases cur with
    | nil => simp [drops] at hd
    | cons e c =>
      simp only [drops, Bool.and_eq_true, decide_eq_true_eq] at hd
      have hlk : e.lock = false := by
        cases h : e.lock with
        | false => rfl
        | true => have := (I.top h).1; rw [hd.1.1] at this; simp at this
      rw [plain_cons hlk] at hH
      exact Or.inr ⟨e, plain c ++ old, by simpa using hH, hd.1.1, commBefore_mono (by omega) hd.2⟩
  · rw [if_neg hd]
    refine ⟨⟨?_, Nat.lt_succ_self _, hold⟩, Nat.lt_succ_self _, I.excl, I.hs, I.order, I.clt, I.top⟩
    obtain ⟨new, old, hH, hnew, hnc, ho⟩ := h0.dec
    exact ⟨⟨new, old, hH, hnew, hnc, old_mono (Adv.refl 0 st) (by have := I.low; omega) ho⟩, h0.deads, h0.locks⟩

/-- A page operation that keeps the row and leaves no image: nobody needs the older ones. -/
theorem K.freeze {st : Nat → Status} {next oldest loc : Nat} {undo : Nat → Bool} {H : List Ver}
    {dead : Ver → Bool} {csn : Nat} {cur : Chain} {t : KH}
    (I : K st next oldest loc undo H dead csn cur t) (h : t = [] ∨ csn < oldest) :
    K st (next + 1) oldest loc undo H dead 0 cur [] := by
  have h0 := I.levs.head
  have hle : csn ≤ oldest := by
    rcases h with h | h
    · subst h; have := I.levs.2; omega
    · omega
  refine ⟨⟨?_, rfl⟩, Nat.succ_pos _, I.excl, I.hs, I.order, I.clt, I.top⟩
  obtain ⟨new, old, hH, hnew, hnc, ho⟩ := h0.dec
  exact ⟨⟨new, old, hH, hnew, hnc, old_mono (Adv.refl 0 st) (by omega) ho⟩, h0.deads, h0.locks⟩

/-- A page operation that touches other pages only. -/
theorem K.other {st : Nat → Status} {next oldest loc : Nat} {undo : Nat → Bool} {H : List Ver}
    {dead : Ver → Bool} {csn : Nat} {cur : Chain} {t : KH}
    (I : K st next oldest loc undo H dead csn cur t)
    (hn : ∀ y q, st y = .committed q → q < next) :
    K st (next + 1) oldest loc undo H dead csn cur t :=
  I.adv (Adv.refl _ _) hn (Nat.le_succ _) (Nat.le_refl _) (fun e he => (I.hs e he).2.2.2.2)

end Verif.Visible
