/-
The invariant of the whole tree and its preservation by every step.
-/
import Verif.Visible.Wide
import Verif.Visible.Spec

namespace Verif.Visible

/-- A version as the user knows it. -/
def toChange (k : Nat) (e : Ver) : Change :=
  { oxid := e.oxid, key := k, cid := e.cid, pos := e.loc, value := if e.del then none else some e.val }

/-- The invariant: `past` is what has happened, `H k` the changes of row `k` not undone,
newest first, `dead` the versions that were undone. -/
structure Inv (s : St) (past : List Ev) (H : Nat → List Ver) (dead : Ver → Bool) : Prop where
  ok : Ok 0 s.leaves
  rows : ∀ k v, view s.leaves k = some v →
    K s.st s.next s.oldest s.loc s.undo (H k) dead v.1 v.2.1 v.2.2
  comm : ∀ y q, s.st y = .committed q → q < s.next
  commit : ∀ y q, (Book.init.after past).commit y = some q ↔ s.st y = .committed q
  changes : ∀ k, (Book.init.after past).changes.filter (fun ch => decide (ch.key = k)) =
    (H k).map (toChange k)
  deadlt : ∀ e, dead e = true → e.loc < s.loc
  deadU : ∀ e, dead e = true → ∃ m, Ev.undid e.oxid m ∈ past
  wide : ∀ b j v, b ≤ j → wview s.leaves b j = some v →
    WLevs s.st s.next s.oldest (H j) dead true 0 v.1 v.2.1 v.2.2

/-- Images taken before a step are as good after it. -/
def Carry (s : St) (H : Nat → List Ver) (dead : Ver → Bool) (s' : St) (H' : Nat → List Ver)
    (dead' : Ver → Bool) : Prop :=
  ∀ j pc low A, pc ≤ s.next → Lev s.st s.oldest (H j) dead false pc low A →
    Lev s'.st s'.oldest (H' j) dead' false pc low A

theorem Book.after_append : ∀ (b : Book) (l r : List Ev), b.after (l ++ r) = (b.after l).after r
  | _, [], _ => rfl
  | b, e :: l, r => Book.after_append (b.step e) l r

theorem Inv.init : Inv St.init [] (fun _ => []) (fun _ => false) := by
  have hlev : Lev St.init.st St.init.oldest [] (fun _ => false) true 0 0 [] :=
    ⟨⟨[], [], rfl, fun _ => rfl, by simp, Or.inl rfl⟩, by simp, trivial⟩
  refine ⟨?_, ?_, ?_, ?_, ?_, by simp, by simp, ?_⟩
  · simp [Ok, St.init, Srt]
  · intro k v hv
    simp only [view, St.init, leafOf, Leaf.covers, if_true, Option.map_some, Leaf.view, get, kh,
      Option.some.injEq] at hv
    subst hv
    refine ⟨⟨⟨⟨[], [], rfl, fun _ => rfl, by simp, Or.inl rfl⟩, by simp, trivial⟩, rfl⟩, ?_, by simp,
      by simp, by simp, by simp, trivial⟩
    simp [St.init]
  · intro y q h; simp [St.init] at h
  · intro y q; simp [St.init, Book.after, Book.init]
  · intro k; simp [Book.after, Book.init]
  · intro b j v hbj hv
    simp only [wview, St.init, leafOf, Leaf.covers, if_true, Option.map_some, Leaf.wview, wh,
      Option.some.injEq] at hv
    subst hv
    refine ⟨?_, rfl⟩
    intro a ha
    simp [cell, hkCov, get] at ha
    subst ha
    exact hlev

theorem row_view {s : St} {k : Nat} {v : View} (h : view s.leaves k = some v) : s.row k = v.2.1 := by
  unfold view at h
  unfold St.row
  cases hl : leafOf s.leaves k with
  | none => rw [hl] at h; simp at h
  | some p =>
    rw [hl] at h
    simp only [Option.map_some, Option.some.injEq] at h
    subst h; rfl

/-- A page operation on all rows. -/
theorem Inv.turn {s : St} {past : List Ev} {H : Nat → List Ver} {dead : Ver → Bool}
    (I : Inv s past H dead) {l : List Leaf} (hok : Ok 0 l)
    (h : ∀ k v', view l k = some v' → ∃ v, view s.leaves k = some v ∧ Turn s v v')
    (hw : ∀ b j v', b ≤ j → wview l b j = some v' → ∃ v, wview s.leaves b j = some v ∧ WTurn s v v') :
    Inv { s with leaves := l, next := s.next + 1 } past H dead := by
  have hrows : ∀ k v', view l k = some v' →
      K s.st (s.next + 1) s.oldest s.loc s.undo (H k) dead v'.1 v'.2.1 v'.2.2 := by
    intro k v' hv'
    obtain ⟨v, hv, T⟩ := h k v' hv'
    have R := I.rows k v hv
    cases T with
    | same => exact R.other I.comm
    | diff csn cur t => exact R.diff
    | full csn cur t fin => exact R.full
    | freeze csn cur t h => exact R.freeze h
  refine ⟨hok, hrows, ?_, I.commit, I.changes, I.deadlt, I.deadU, ?_⟩
  · intro y q hq
    have := I.comm y q hq
    show q < s.next + 1
    omega
  · intro b j v' hbj hv'
    obtain ⟨v, hv, T⟩ := hw b j v' hbj hv'
    obtain ⟨A, t, hb⟩ := wview_csn hv
    refine (I.wide b j v hbj hv).turn (I.rows b _ hb).low T ?_
    intro a ha
    obtain ⟨t', ht'⟩ := wview_head hbj hv' ha
    exact (hrows j _ ht').levs.head

theorem mayWrite_head {st : Nat → Status} {x : Nat} {del : Bool} {c : Chain}
    (h : mayWrite st x del c = true) (w : Ver) (hw : (plain c).head? = some w) :
    w.oxid = x ∨ finished st w.oxid = true := by
  rw [plain_head_skip] at hw
  unfold mayWrite at h
  cases hs : skipLocks c with
  | nil => rw [hs] at hw; simp at hw
  | cons e t =>
    rw [hs] at hw h
    simp at hw h
    subst hw
    exact h.1

/-- After the locks of finished transactions are gone, a regular change may be put on
top of the chain. -/
theorem K.lockOK {st : Nat → Status} {next oldest loc : Nat} {undo : Nat → Bool} {H : List Ver}
    {dead : Ver → Bool} {csn : Nat} {cur : Chain} {t : KH} {x : Nat} {del : Bool}
    (I : K st next oldest loc undo H dead csn (Visible.purge st x cur) t)
    (hx : st x = .running) (hm : mayWrite st x del (Visible.purge st x cur) = true)
    (hr : ∀ w, (plain (Visible.purge st x cur)).head? = some w → w.oxid = x →
      ∀ z ∈ (Visible.purge st x cur).takeWhile (fun f => f.lock), z.oxid = x) :
    LockOK st (Visible.purge st x cur) := by
  refine LockOK.of_top I.levs.head.locks I.top ?_ I.order
  intro z hz w hw
  have hzl : z.lock = true := by
    have : ∀ (l : Chain), z ∈ l.takeWhile (fun f => f.lock) → z.lock = true := by
      intro l
      induction l with
      | nil => simp
      | cons a l ih =>
        intro h
        rw [List.takeWhile_cons] at h
        split at h
        · rcases List.mem_cons.1 h with rfl | h
          · assumption
          · exact ih h
        · simp at h
    exact this _ hz
  have hzp : z ∈ Visible.purge st x cur := (List.takeWhile_sublist _).mem hz
  have hzr : st z.oxid = .running := by
    have := (List.mem_filter.1 hzp).2
    simp only [hzl, Bool.true_and, Bool.not_eq_true', Bool.and_eq_false_iff, decide_eq_false_iff_not,
      Decidable.not_not, ne_eq] at this
    rcases this with h | h
    · unfold finished at h
      cases hq : st z.oxid with
      | running => rfl
      | committed q => rw [hq] at h; simp at h
      | aborted => rw [hq] at h; simp at h
    · rw [h]; exact hx
  rcases mayWrite_head hm w hw with h | h
  · exact Or.inr (by rw [h, hr w hw h z hz])
  · left
    refine ⟨hzr, ?_⟩
    obtain ⟨old, hH, _⟩ := I.split
    have hwH : w ∈ H := by
      rw [hH]
      exact List.mem_append_left _ (List.mem_of_mem_head? hw)
    have hna := (I.hs w hwH).2.2.2.2
    unfold finished at h
    cases hq : st w.oxid with
    | running => rw [hq] at h; simp at h
    | committed q => exact ⟨q, rfl⟩
    | aborted => exact absurd hq hna

theorem Inv.write {s : St} {past : List Ev} {H : Nat → List Ver} {dead : Ver → Bool}
    (I : Inv s past H dead) {x k cid : Nat} {del : Bool} {v : Nat}
    (hx : s.st x = .running) (hm : mayWrite s.st x del (purge s.st x (s.row k)) = true)
    (hr : s.regular (.write x k cid del v) = true) :
    ∃ H' dead', Inv (s.step (.write x k cid del v)).1
      (past ++ [Ev.wrote x k cid s.loc del v]) H' dead' ∧
      Carry s H dead (s.step (.write x k cid del v)).1 H' dead' := by
  obtain ⟨e, he⟩ : ∃ e : Ver, e = { oxid := x, cid := cid, loc := s.loc, lock := false, del := del, val := v } :=
    ⟨_, rfl⟩
  refine ⟨fun j => if j = k then e :: H k else H j, dead, ?_⟩
  have hdead : dead e = false := by
    cases hd : dead e with
    | false => rfl
    | true => have := I.deadlt e hd; rw [he] at this; simp at this
  have hst : (s.step (.write x k cid del v)).1 =
      { s with
        leaves := onLeaf k (Leaf.setRow k (e :: purge s.st x (s.row k))) s.leaves
        loc := s.loc + 1
        undo := fun y => if y = x then true else s.undo y } := by
    simp only [St.step]
    rw [if_pos ⟨hx, hm⟩, he]
  rw [hst]
  have hu : ∀ y, s.undo y = true → (if y = x then true else s.undo y) = true := by
    intro y hy; split
    · rfl
    · exact hy
  have hother : ∀ j w, view s.leaves j = some w →
      K s.st s.next s.oldest (s.loc + 1) (fun y => if y = x then true else s.undo y) (H j) dead
        w.1 w.2.1 w.2.2 := by
    intro j w hw
    have R := I.rows j w hw
    exact ⟨R.levs, R.low, R.excl, fun f hf => by
      have := R.hs f hf
      exact ⟨this.1, by omega, hu _ this.2.2.1, this.2.2.2⟩, R.order,
      fun f hf => by have := R.clt f hf; omega, R.top⟩
  have hlk : ∀ u, view s.leaves k = some u → LockOK s.st (purge s.st x u.2.1) := by
    intro u hv
    have R := (I.rows k u hv).purge x
    rw [row_view hv] at hm
    refine R.lockOK hx hm ?_
    intro w hw hwx z hz
    unfold St.regular at hr
    simp only [row_view hv] at hr
    rw [plain_head_skip] at hw
    cases hsk : skipLocks (purge s.st x u.2.1) with
    | nil => rw [hsk] at hw; simp at hw
    | cons a r =>
      rw [hsk] at hw hr
      simp only [List.head?_cons, Option.some.injEq] at hw
      subst hw
      simp only [hwx, ne_eq, not_true_eq_false, decide_false, Bool.false_or] at hr
      have := List.all_eq_true.1 hr z hz
      simpa using this
  refine ⟨⟨I.ok.set (Nat.zero_le _), ?_, I.comm, ?_, ?_, ?_, ?_, ?_⟩, ?_⟩
  rotate_left 6
  · intro j pc low A _ L
    simp only
    by_cases hj : j = k
    · subst hj
      rw [if_pos rfl]
      exact L.writeOld (by rw [he]; exact hx)
    · rw [if_neg hj]; exact L
  · intro j w hw
    simp only at hw
    rw [view_set] at hw
    cases hv : view s.leaves j with
    | none => rw [hv] at hw; simp at hw
    | some u =>
      rw [hv] at hw
      simp only [Option.map_some, Option.some.injEq] at hw
      by_cases hj : j = k
      · subst hj
        simp only [if_true] at hw ⊢
        subst hw
        have R := (I.rows j u hv).purge x
        have hk := hlk u hv
        rw [row_view hv] at hm ⊢
        have := R.write (e := e) (undo' := fun y => if y = x then true else s.undo y)
          (by rw [he]) (by rw [he]) (by rw [he]; exact hx) hdead
          (by rw [he]; exact mayWrite_head hm) hk hu (by rw [he]; simp)
        exact this
      · rw [if_neg hj] at hw ⊢
        subst hw
        exact hother j u hv
  · intro y q
    rw [Book.after_append]
    exact I.commit y q
  · intro j
    rw [Book.after_append]
    simp only [Book.after, Book.step]
    by_cases hj : j = k
    · subst hj
      simp only [if_true, List.filter_cons, decide_true, List.map_cons, I.changes j, toChange, he]
    · have : ¬ k = j := fun h => hj h.symm
      simp only [if_neg hj, List.filter_cons, this, decide_false, Bool.false_eq_true, if_false]
      exact I.changes j
  · intro f hf; have := I.deadlt f hf; show f.loc < s.loc + 1; omega
  · intro f hf
    obtain ⟨m, hm⟩ := I.deadU f hf
    exact ⟨m, by simp [hm]⟩
  · intro b j w hbj hw
    simp only at hw
    rw [wview_set hbj] at hw
    cases hv : wview s.leaves b j with
    | none => rw [hv] at hw; simp at hw
    | some u =>
      rw [hv] at hw
      simp only [Option.map_some, Option.some.injEq] at hw
      have W := I.wide b j u hbj hv
      by_cases hj : j = k
      · subst hj
        simp only [if_true] at hw ⊢
        subst hw
        obtain ⟨p, hp⟩ := I.ok.leaf (k := j)
        have hvj : view s.leaves j = some (p.view j) := by unfold view; rw [hp]; rfl
        have hlk' := hlk _ hvj
        rw [← row_view hvj] at hlk'
        have hcur : ∀ a, u.2.1 = some a → a = s.row j := by
          intro a ha
          obtain ⟨t', ht'⟩ := wview_head hbj hv ha
          rw [row_view ht']
        have hW := WLevs.map (st' := s.st) (next' := s.next) (oldest' := s.oldest) (H' := e :: H j)
          (dead' := dead) (g := fun _ => e :: purge s.st x (s.row j)) (P := fun A => A = s.row j)
          (Nat.le_refl _) (fun pc low A _ L => L.writeOld (by rw [he]; exact hx))
          (fun pc low A hA _ L => by
            rw [hA] at L
            exact (L.purge x).writeTop (by rw [he]) hdead hlk')
          u.2.2 true 0 u.1 u.2.1 (Nat.zero_le _) (fun _ => hcur) W
        simpa using hW
      · rw [if_neg hj] at hw ⊢
        subst hw
        exact W

theorem Inv.lock {s : St} {past : List Ev} {H : Nat → List Ver} {dead : Ver → Bool}
    (I : Inv s past H dead) {x k cid : Nat}
    (hx : s.st x = .running) (hm : mayLock s.st x (purge s.st x (s.row k)) = true) :
    Inv (s.step (.lock x k cid)).1 past H dead := by
  obtain ⟨e, he⟩ : ∃ e : Ver, e = { oxid := x, cid := cid, loc := s.loc, lock := true, del := false, val := 0 } :=
    ⟨_, rfl⟩
  have hst : (s.step (.lock x k cid)).1 =
      { s with
        leaves := onLeaf k (Leaf.setRow k (e :: purge s.st x (s.row k))) s.leaves
        loc := s.loc + 1
        undo := fun y => if y = x then true else s.undo y } := by
    simp only [St.step]
    rw [if_pos ⟨hx, hm⟩, he]
  rw [hst]
  have hu : ∀ y, s.undo y = true → (if y = x then true else s.undo y) = true := by
    intro y hy; split
    · rfl
    · exact hy
  refine ⟨I.ok.set (Nat.zero_le _), ?_, I.comm, I.commit, I.changes, ?_, I.deadU, ?_⟩
  · intro j w hw
    simp only at hw
    rw [view_set] at hw
    cases hv : view s.leaves j with
    | none => rw [hv] at hw; simp at hw
    | some u =>
      rw [hv] at hw
      simp only [Option.map_some, Option.some.injEq] at hw
      by_cases hj : j = k
      · subst hj
        simp only [if_true] at hw
        subst hw
        have R := (I.rows j u hv).purge x
        rw [row_view hv] at hm ⊢
        exact R.lock (z := e) (by rw [he]) (by rw [he]) (by rw [he]) (by rw [he]; exact hm) hu
      · rw [if_neg hj] at hw
        subst hw
        have R := I.rows j u hv
        exact ⟨R.levs, R.low, R.excl, fun f hf => by
          have := R.hs f hf
          exact ⟨this.1, by show f.loc < s.loc + 1; omega, hu _ this.2.2.1, this.2.2.2⟩, R.order,
          fun f hf => by have := R.clt f hf; show f.loc < s.loc + 1; omega, R.top⟩
  · intro f hf; have := I.deadlt f hf; show f.loc < s.loc + 1; omega
  · intro b j w hbj hw
    simp only at hw
    rw [wview_set hbj] at hw
    cases hv : wview s.leaves b j with
    | none => rw [hv] at hw; simp at hw
    | some u =>
      rw [hv] at hw
      simp only [Option.map_some, Option.some.injEq] at hw
      have W := I.wide b j u hbj hv
      by_cases hj : j = k
      · subst hj
        simp only [if_true] at hw
        subst hw
        have hcur : ∀ a, u.2.1 = some a → a = s.row j := by
          intro a ha
          obtain ⟨t', ht'⟩ := wview_head hbj hv ha
          rw [row_view ht']
        have hW := WLevs.map (st' := s.st) (next' := s.next) (oldest' := s.oldest) (H' := H j)
          (dead' := dead) (g := fun _ => e :: purge s.st x (s.row j)) (P := fun A => A = s.row j)
          (Nat.le_refl _) (fun pc low A _ L => L)
          (fun pc low A hA _ L => by
            rw [hA] at L
            exact (L.purge x).lock (by rw [he]))
          u.2.2 true 0 u.1 u.2.1 (Nat.zero_le _) (fun _ => hcur) W
        simpa using hW
      · rw [if_neg hj] at hw
        subst hw
        exact W

/-- Some changes of a running transaction are undone. -/
theorem Inv.undo {s : St} {past : List Ev} {H : Nat → List Ver} {dead : Ver → Bool}
    (I : Inv s past H dead) {x m : Nat} (hx : s.st x = .running) :
    Inv { s with leaves := s.leaves.map (Leaf.rollback x m) } (past ++ [Ev.undid x m])
      (fun k => (H k).filter (fun e => !undone x m e))
      (fun e => dead e || (undone x m e && decide (e.loc < s.loc))) := by
  refine ⟨I.ok.rollback, ?_, I.comm, ?_, ?_, ?_, ?_, ?_⟩
  · intro k v hv
    simp only at hv
    rw [view_rollback I.ok] at hv
    cases hu : view s.leaves k with
    | none => rw [hu] at hv; simp at hv
    | some u =>
      rw [hu] at hv
      simp only [Option.map_some, Option.some.injEq] at hv
      subst hv
      exact (I.rows k u hu).undo hx
  · intro y q
    rw [Book.after_append]
    exact I.commit y q
  · intro k
    rw [Book.after_append]
    simp only [Book.after, Book.step]
    have h1 : ∀ (l : List Change), (l.filter (fun ch => decide (ch.oxid ≠ x ∨ ch.pos < m))).filter
        (fun ch => decide (ch.key = k)) =
        (l.filter (fun ch => decide (ch.key = k))).filter (fun ch => decide (ch.oxid ≠ x ∨ ch.pos < m)) := by
      intro l
      rw [List.filter_filter, List.filter_filter]
      apply List.filter_congr
      intro ch _
      rw [Bool.and_comm]
    rw [h1, I.changes k, List.filter_map]
    congr 1
    apply List.filter_congr
    intro e _
    simp only [Function.comp, toChange, undone]
    by_cases h1 : e.oxid = x <;> by_cases h2 : m ≤ e.loc <;> simp [h1, h2] <;> omega
  · intro e he
    simp only [Bool.or_eq_true, Bool.and_eq_true, decide_eq_true_eq] at he
    rcases he with h | h
    · exact I.deadlt e h
    · exact h.2
  · intro e he
    simp only [Bool.or_eq_true, Bool.and_eq_true, decide_eq_true_eq] at he
    rcases he with h | h
    · obtain ⟨m', hm'⟩ := I.deadU e h
      exact ⟨m', by simp [hm']⟩
    · have : e.oxid = x := by
        have := h.1; simp [undone] at this; exact this.1
      exact ⟨m, by simp [this]⟩
  · intro b j w hbj hw
    simp only at hw
    rw [wview_rollback I.ok] at hw
    cases hv : wview s.leaves b j with
    | none => rw [hv] at hw; simp at hw
    | some u =>
      rw [hv] at hw
      simp only [Option.map_some, Option.some.injEq] at hw
      subst hw
      obtain ⟨p, hp⟩ := I.ok.leaf (k := j)
      have R := I.rows j (p.view j) (by unfold view; rw [hp]; rfl)
      have hHl : ∀ e ∈ H j, e.loc < s.loc := fun e he => (R.hs e he).2.1
      have hW := WLevs.map (st' := s.st) (next' := s.next) (oldest' := s.oldest)
        (H' := (H j).filter (fun e => !undone x m e))
        (dead' := fun e => dead e || (undone x m e && decide (e.loc < s.loc)))
        (g := fun A => A.filter (fun e => !undone x m e)) (P := fun _ => True)
        (Nat.le_refl _) (fun pc low A _ L => L.undoOld hx hHl)
        (fun pc low A _ _ L => L.undoTop hx hHl)
        u.2.2 true 0 u.1 u.2.1 (Nat.zero_le _) (fun _ _ _ => trivial) (I.wide b j u hbj hv)
      simpa using hW

/-- The status of a running transaction changes. -/
theorem Inv.adv {s : St} {past past' : List Ev} {H : Nat → List Ver} {dead : Ver → Bool}
    (I : Inv s past H dead) {st' : Nat → Status} {next' oldest' : Nat} (A : Adv s.next s.st st')
    (h1 : s.next ≤ next') (h2 : s.oldest ≤ oldest')
    (hab : ∀ k e, e ∈ H k → st' e.oxid ≠ .aborted)
    (hcm : ∀ y q, st' y = .committed q → q < next')
    (hcom : ∀ y q, (Book.init.after past').commit y = some q ↔ st' y = .committed q)
    (hch : (Book.init.after past').changes = (Book.init.after past).changes)
    (hsub : ∀ e, e ∈ past → e ∈ past') :
    Inv { s with st := st', next := next', oldest := oldest' } past' H dead := by
  refine ⟨I.ok, ?_, hcm, hcom, ?_, I.deadlt, ?_, ?_⟩
  · intro k v hv
    exact (I.rows k v hv).adv A I.comm h1 h2 (hab k)
  · intro k; rw [hch]; exact I.changes k
  · intro e he
    obtain ⟨m, hm⟩ := I.deadU e he
    exact ⟨m, hsub _ hm⟩
  · intro b j u hbj hv
    have hW := WLevs.map (st' := st') (next' := next') (oldest' := oldest') (H' := H j)
      (dead' := dead) (g := id) (P := fun _ => True)
      h1 (fun pc low B hpc L => L.adv A I.comm h2 hpc)
      (fun pc low B _ hpc L => L.adv A I.comm h2 hpc)
      u.2.2 true 0 u.1 u.2.1 (Nat.zero_le _) (fun _ _ _ => trivial) (I.wide b j u hbj hv)
    simpa using hW

theorem Inv.step {s : St} {past : List Ev} {H : Nat → List Ver} {dead : Ver → Bool}
    (I : Inv s past H dead) (o : Op) (hr : s.regular o = true) :
    ∃ H' dead', Inv (s.step o).1 (past ++ (s.step o).2.toList) H' dead' ∧
      Carry s H dead (s.step o).1 H' dead' := by
  have hab : ∀ k e, e ∈ H k → s.st e.oxid ≠ .aborted := by
    intro k e he
    obtain ⟨p, hp⟩ := I.ok.leaf (k := k)
    have := I.rows k (p.view k) (by unfold view; rw [hp]; rfl)
    exact (this.hs e he).2.2.2.2
  have hHl : ∀ k e, e ∈ H k → e.loc < s.loc := by
    intro k e he
    obtain ⟨p, hp⟩ := I.ok.leaf (k := k)
    have := I.rows k (p.view k) (by unfold view; rw [hp]; rfl)
    exact (this.hs e he).2.1
  cases o with
  | write x k cid del v =>
    by_cases h : s.st x = .running ∧ mayWrite s.st x del (purge s.st x (s.row k)) = true
    · obtain ⟨H', d', R⟩ := I.write h.1 h.2 hr
      refine ⟨H', d', ?_⟩
      have : (s.step (.write x k cid del v)).2.toList = [Ev.wrote x k cid s.loc del v] := by
        simp only [St.step]; rw [if_pos h]; rfl
      rw [this]; exact R
    · refine ⟨H, dead, ?_⟩
      simp only [St.step]; rw [if_neg h]
      exact ⟨by simpa using I, fun _ _ _ _ _ L => L⟩
  | lock x k cid =>
    by_cases h : s.st x = .running ∧ mayLock s.st x (purge s.st x (s.row k)) = true
    · refine ⟨H, dead, ?_⟩
      have : (s.step (.lock x k cid)).2.toList = [] := by
        simp only [St.step]; rw [if_pos h]; rfl
      rw [this, List.append_nil]
      refine ⟨I.lock h.1 h.2, ?_⟩
      simp only [St.step]; rw [if_pos h]
      exact fun _ _ _ _ _ L => L
    · refine ⟨H, dead, ?_⟩
      simp only [St.step]; rw [if_neg h]
      exact ⟨by simpa using I, fun _ _ _ _ _ L => L⟩
  | commit x =>
    refine ⟨H, dead, ?_⟩
    by_cases h : s.st x = .running
    · simp only [St.step]; rw [if_pos h]
      have hadv : Adv s.next s.st (setSt s.st x (.committed s.next)) :=
        Adv.set h (by intro q hq; cases hq; exact Nat.le_refl _)
      refine ⟨?_, fun _ _ _ _ hpc L => L.adv hadv I.comm (Nat.le_refl _) hpc⟩
      refine I.adv (oldest' := s.oldest) hadv (Nat.le_succ _)
        (Nat.le_refl _) ?_ ?_ ?_ ?_ ?_
      · intro k e he
        unfold setSt
        split
        · simp
        · exact hab k e he
      · intro y q hq
        unfold setSt at hq
        split at hq
        · cases hq; exact Nat.lt_succ_self _
        · have := I.comm y q hq; omega
      · intro y q
        simp only [Option.toList, Book.after_append, Book.after, Book.step, setSt]
        split
        · simp
        · exact I.commit y q
      · simp only [Option.toList, Book.after_append, Book.after, Book.step]
      · intro e he; simp [he]
    · simp only [St.step]; rw [if_neg h]
      exact ⟨by simpa using I, fun _ _ _ _ _ L => L⟩
  | abort x =>
    by_cases h : s.st x = .running
    · simp only [St.step]; rw [if_pos h]
      refine ⟨fun k => (H k).filter (fun e => !undone x 0 e),
        fun e => dead e || (undone x 0 e && decide (e.loc < s.loc)), ?_, ?_⟩
      · have J := I.undo (m := 0) h
        have := J.adv (past' := past ++ [Ev.undid x 0]) (st' := setSt s.st x .aborted) (next' := s.next)
          (oldest' := s.oldest)
          (Adv.set h (by intro q hq; cases hq)) (Nat.le_refl _) (Nat.le_refl _) ?_ ?_ ?_ rfl (fun _ h => h)
        · simpa using this
        · intro k e he
          obtain ⟨h1, h2⟩ := List.mem_filter.1 he
          unfold setSt
          split
          · next hx => simp [undone, hx] at h2
          · exact hab k e h1
        · intro y q hq
          unfold setSt at hq
          split at hq
          · cases hq
          · exact I.comm y q hq
        · intro y q
          rw [J.commit y q]
          unfold setSt
          split
          · next hy => subst hy; show s.st y = _ ↔ _; rw [h]; simp
          · exact Iff.rfl
      · intro j pc low A hpc L
        exact (L.undoOld h (hHl j)).adv (Adv.set h (by intro q hq; cases hq)) I.comm (Nat.le_refl _) hpc
    · refine ⟨H, dead, ?_⟩
      simp only [St.step]; rw [if_neg h]
      exact ⟨by simpa using I, fun _ _ _ _ _ L => L⟩
  | rollbackTo x m =>
    by_cases h : s.st x = .running
    · refine ⟨fun k => (H k).filter (fun e => !undone x m e),
        fun e => dead e || (undone x m e && decide (e.loc < s.loc)), ?_⟩
      · simp only [St.step]; rw [if_pos h]
        exact ⟨I.undo h, fun j pc low A _ L => L.undoOld h (hHl j)⟩
    · refine ⟨H, dead, ?_⟩
      simp only [St.step]; rw [if_neg h]
      exact ⟨by simpa using I, fun _ _ _ _ _ L => L⟩
  | split m fin seq free =>
    refine ⟨H, dead, ?_⟩
    simp only [St.step, Option.toList, List.append_nil]
    refine ⟨?_, fun _ _ _ _ _ L => L⟩
    exact I.turn I.ok.split (fun k => view_split I.ok (Nat.zero_le _))
      (fun b j v' hbj => wview_split hbj I.ok v')
  | compact k fin =>
    refine ⟨H, dead, ?_⟩
    simp only [St.step, Option.toList, List.append_nil]
    refine ⟨?_, fun _ _ _ _ _ L => L⟩
    exact I.turn I.ok.compact (fun k => view_compact I.ok)
      (fun b j v' _ => wview_compact _ v')
  | merge b fin seq free =>
    refine ⟨H, dead, ?_⟩
    simp only [St.step, Option.toList, List.append_nil]
    refine ⟨?_, fun _ _ _ _ _ L => L⟩
    exact I.turn I.ok.merge (fun k => view_merge I.ok)
      (fun b j v' hbj => wview_merge hbj I.ok v')
  | forget m =>
    refine ⟨H, dead, ?_⟩
    simp only [St.step, Option.toList, List.append_nil]
    have hle : s.oldest ≤ if s.oldest < m ∧ m ≤ s.next then m else s.oldest := by split <;> omega
    exact ⟨I.adv (st' := s.st) (next' := s.next) (Adv.refl _ _) (Nat.le_refl _) hle hab I.comm I.commit rfl
      (fun _ h => h), fun _ _ _ _ hpc L => L.adv (Adv.refl _ _) I.comm hle hpc⟩

theorem Inv.run {s : St} {past : List Ev} {H : Nat → List Ver} {dead : Ver → Bool} :
    ∀ (ops : List Op) , Inv s past H dead → s.regularRun ops = true →
    ∃ H' dead', Inv (s.run ops) (past ++ s.trace ops) H' dead' := by
  intro ops
  induction ops generalizing s past H dead with
  | nil => intro I _; exact ⟨H, dead, by simpa [St.run, St.trace] using I⟩
  | cons o t ih =>
    intro I hr
    simp only [St.regularRun, Bool.and_eq_true] at hr
    obtain ⟨H', d', I', _⟩ := I.step o hr.1
    obtain ⟨H'', d'', I''⟩ := ih I' hr.2
    refine ⟨H'', d'', ?_⟩
    simp only [St.run, St.trace]
    rw [← List.append_assoc]
    exact I''

/-- The newest visible change is the newest visible version. -/
theorem value_firstSeen {s : St} {past : List Ev} {H : Nat → List Ver} {dead : Ver → Bool}
    (I : Inv s past H dead) {sn : Snap} (hx : s.st sn.oxid = .running) (k : Nat) :
    (Book.init.after past).value sn k = firstSeen s.st sn (H k) := by
  obtain ⟨p, hp⟩ := I.ok.leaf (k := k)
  have R := I.rows k (p.view k) (by unfold view; rw [hp]; rfl)
  obtain ⟨b, hb⟩ : ∃ b, b = Book.init.after past := ⟨_, rfl⟩
  have hcom := I.commit
  have hch := I.changes k
  rw [← hb] at hcom hch ⊢
  have hsees : ∀ e ∈ H k, b.sees sn (toChange k e) = stopsAt s.st sn e := by
    intro e he
    have hs := R.hs e he
    unfold Book.sees stopsAt commBefore
    simp only [toChange, hs.1, Bool.not_false, Bool.and_true]
    have h1 : b.commit e.oxid = match s.st e.oxid with | .committed q => some q | _ => none := by
      cases hq : s.st e.oxid with
      | committed q => exact (hcom _ q).2 hq
      | running =>
        cases hc : b.commit e.oxid with
        | none => rfl
        | some q => have := (hcom _ q).1 hc; rw [hq] at this; cases this
      | aborted =>
        cases hc : b.commit e.oxid with
        | none => rfl
        | some q => have := (hcom _ q).1 hc; rw [hq] at this; cases this
    rw [h1]
    by_cases ho : e.oxid = sn.oxid
    · have hr : s.st e.oxid = .running := by rw [ho]; exact hx
      simp [ho, hx]
      rfl
    · simp only [ho, decide_false, Bool.false_and, Bool.and_false, Bool.false_or]
      cases s.st e.oxid <;> rfl
  have hfind : ∀ (l : List Change), l.find? (fun ch => decide (ch.key = k) && b.sees sn ch) =
      (l.filter (fun ch => decide (ch.key = k))).find? (fun ch => b.sees sn ch) := by
    intro l
    rw [List.find?_filter]
    congr 1; funext ch
    simp
  unfold Book.value
  rw [hfind, hch]
  have : ∀ (l : List Ver), (∀ e ∈ l, b.sees sn (toChange k e) = stopsAt s.st sn e) →
      (((l.map (toChange k)).find? (fun ch => b.sees sn ch)).map (fun ch => ch.value)).join =
      firstSeen s.st sn l := by
    intro l
    induction l with
    | nil => intro _; rfl
    | cons e l ih =>
      intro h
      simp only [List.map_cons, List.find?_cons, firstSeen]
      rw [h e (by simp)]
      cases hse : stopsAt s.st sn e with
      | true => simp [toChange]
      | false => simpa using ih (fun f hf => h f (by simp [hf]))
  exact this _ hsees

/-- The newest own version on the live page. -/
theorem fetchOur_plain (x : Nat) (c : Chain) : fetchOur x c =
    match (plain c).head? with
    | none => none
    | some e => if e.oxid = x then (if e.del then none else some e.val) else none := by
  unfold fetchOur
  rw [plain_head_skip]
  cases skipLocks c <;> rfl

end Verif.Visible
