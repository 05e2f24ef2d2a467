/-
The shape of the images of pages, and the invariant of a scan.
-/
import Verif.Visible.Inv
import Verif.Visible.ScanSpec

namespace Verif.Visible

/-- All images fit together: high keys and rows, and the images read with a key of the
page contain the place of the key. -/
def Sh : Nat → List Leaf → Prop
  | _, [] => True
  | lo, p :: t => HSh p.hikey p.hist ∧ (∀ k, lo ≤ k → hkCov p.hikey k = true → Cov k p.hist) ∧
    match p.hikey with
    | none => True
    | some h => Sh h t

theorem Sh.init : Sh 0 St.init.leaves := by simp [Sh, St.init, HSh, Cov]

theorem Sh.leaf {k : Nat} : ∀ {l : List Leaf} {lo : Nat} {p : Leaf}, Sh lo l → lo ≤ k →
    leafOf l k = some p → HSh p.hikey p.hist ∧ Cov k p.hist
  | [], _, p, _, _, h => by simp [leafOf] at h
  | q :: t, lo, p, hs, hlo, h => by
    rw [leafOf] at h
    by_cases hc : q.covers k = true
    · rw [if_pos hc] at h
      simp only [Option.some.injEq] at h
      subst h
      rw [covers_hkCov] at hc
      exact ⟨hs.1, hs.2.1 k hlo hc⟩
    · rw [if_neg hc] at h
      have h3 := hs.2.2
      rw [covers_hkCov] at hc
      unfold hkCov at hc
      cases hq : q.hikey with
      | none => rw [hq] at hc; simp at hc
      | some d =>
        rw [hq] at hc h3
        exact h3.leaf (by simpa using hc) h

/-- Rows change, nothing else. -/
theorem Sh.onLeaf {k : Nat} {f : Leaf → Leaf} (h1 : ∀ p, (f p).hikey = p.hikey)
    (h2 : ∀ p, (f p).hist = p.hist) : ∀ {l : List Leaf} {lo : Nat}, Sh lo l → Sh lo (onLeaf k f l)
  | [], _, h => h
  | p :: t, lo, h => by
    unfold Visible.onLeaf
    split
    · unfold Sh; rw [h1, h2]; exact h
    · refine ⟨h.1, h.2.1, ?_⟩
      have h3 := h.2.2
      cases hp : p.hikey with
      | none => trivial
      | some d => rw [hp] at h3; exact Sh.onLeaf h1 h2 h3

theorem Sh.map {f : Leaf → Leaf} (h1 : ∀ p, (f p).hikey = p.hikey)
    (h2 : ∀ p, (f p).hist = p.hist) : ∀ {l : List Leaf} {lo : Nat}, Sh lo l → Sh lo (l.map f)
  | [], _, h => h
  | p :: t, lo, h => by
    rw [List.map_cons]
    unfold Sh
    rw [h1, h2]
    refine ⟨h.1, h.2.1, ?_⟩
    have h3 := h.2.2
    cases hp : p.hikey with
    | none => trivial
    | some d => rw [hp] at h3; exact Sh.map h1 h2 h3

theorem Ok.rowsCov {lo : Nat} {p : Leaf} {t : List Leaf} (h : Ok lo (p :: t)) :
    ∀ r ∈ p.items, hkCov p.hikey r.1 = true := by
  intro r hr
  rw [← covers_hkCov]
  exact (h.2.1 r hr).2

theorem Sh.compact {s : St} {k fin : Nat} : ∀ {l : List Leaf} {lo : Nat}, Ok lo l → Sh lo l →
    Sh lo (Visible.onLeaf k (compactLeaf s fin) l)
  | [], _, h, _ => h.elim
  | p :: t, lo, h, hs => by
    unfold Visible.onLeaf
    split
    · exact ⟨⟨h.1, h.rowsCov, hs.1⟩, fun j hj hc => ⟨hc, hs.2.1 j hj hc⟩, hs.2.2⟩
    · refine ⟨hs.1, hs.2.1, ?_⟩
      have h3 := hs.2.2
      have o3 := h.2.2
      cases hp : p.hikey with
      | none => trivial
      | some d => rw [hp] at h3 o3; exact Sh.compact o3.2 h3

/-- A page may be cut off at `m`. -/
theorem HSh.cut {m : Nat} : ∀ {h : Hist} {hi : Option Nat}, HSh hi h → fits m h = true → HSh (some m) h
  | .nil, _, _, _ => trivial
  | .full _ _ _ _, _, h, _ => h
  | .splitDiff _ _ older, hi, h, hf => HSh.cut (h := older) (hi := hi) h hf
  | .merge _ _ _ _ _ _ _ _, _, h, _ => h
  | .mergeDiff b _ _ _ _, _, h, hf => by
    simp only [fits, Bool.and_eq_true, decide_eq_true_eq] at hf
    exact ⟨fun j hj => by simp [hkCov]; omega, h.2.1, HSh.cut h.2.2 hf.2⟩

/-- The images after a split. -/
theorem HSh.split {s : St} {m fin : Nat} {seq free : Bool} {p : Leaf} (h : HSh p.hikey p.hist)
    (h1 : Srt p.items) (h2 : ∀ r ∈ p.items, hkCov p.hikey r.1 = true) :
    HSh p.hikey (splitHist s m fin seq free p).2 := by
  unfold splitHist
  split
  · exact ⟨h1, h2, h⟩
  · split
    · trivial
    · exact h

theorem HSh.splitLeft {s : St} {m fin : Nat} {seq free : Bool} {p : Leaf} (h : HSh p.hikey p.hist)
    (h1 : Srt p.items) (h2 : ∀ r ∈ p.items, hkCov p.hikey r.1 = true)
    (hf : (match (splitHist s m fin seq free p).2 with
      | .splitDiff _ _ _ => fits m p.hist
      | _ => true) = true) :
    HSh (some m) (splitHist s m fin seq free p).2 := by
  unfold splitHist at hf ⊢
  split
  · exact ⟨h1, h2, h⟩
  · next hd =>
    rw [if_neg hd] at hf
    split
    · trivial
    · next hn =>
      rw [if_neg hn] at hf
      exact HSh.cut h hf

theorem Cov.split {s : St} {m fin : Nat} {seq free : Bool} {p : Leaf} {k : Nat} (h : Cov k p.hist)
    (h1 : hkCov p.hikey k = true) : Cov k (splitHist s m fin seq free p).2 := by
  unfold splitHist
  split
  · exact ⟨h1, h⟩
  · split
    · trivial
    · exact h

theorem Sh.split {s : St} {m fin : Nat} {seq free : Bool} : ∀ {l : List Leaf} {lo : Nat}, Ok lo l → Sh lo l →
    (∀ p, leafOf l m = some p → (match (splitHist s m fin seq free p).2 with
      | .splitDiff _ _ _ => fits m p.hist
      | _ => true) = true) →
    Sh lo (splitAt s m fin seq free lo l)
  | [], _, h, _, _ => h.elim
  | p :: t, lo, h, hs, hf => by
    unfold splitAt
    by_cases hm : p.covers m = true
    · rw [if_pos hm]
      by_cases hl : lo < m
      · rw [if_pos hl]
        have hf' := hf p (by rw [leafOf, if_pos hm])
        rw [covers_hkCov] at hm
        unfold splitLeaf
        simp only [List.cons_append, List.nil_append]
        refine ⟨HSh.splitLeft hs.1 h.1 h.rowsCov hf', ?_, HSh.split hs.1 h.1 h.rowsCov, ?_, hs.2.2⟩
        · intro k hk hc
          have : hkCov p.hikey k = true := hkCov_mono (by simp [hkCov] at hc; omega) hm
          exact Cov.split (hs.2.1 k hk this) this
        · intro k hk hc
          exact Cov.split (hs.2.1 k (by omega) hc) hc
      · rw [if_neg hl]; exact hs
    · rw [if_neg hm]
      refine ⟨hs.1, hs.2.1, ?_⟩
      have h3 := hs.2.2
      have o3 := h.2.2
      cases hp : p.hikey with
      | none => trivial
      | some d =>
        rw [hp] at h3 o3
        refine Sh.split o3.2 h3 ?_
        intro q hq
        exact hf q (by rw [leafOf, if_neg hm]; exact hq)

theorem Sh.merge {s : St} {b fin : Nat} {seq free : Bool} : ∀ {l : List Leaf} {lo : Nat}, Ok lo l → Sh lo l →
    Sh lo (mergeAt s b fin seq free l)
  | [], _, h, _ => h.elim
  | [p], lo, _, hs => hs
  | p :: q :: t, lo, h, hs => by
    unfold mergeAt
    have h3 := h.2.2
    have s3 := hs.2.2
    by_cases hm : p.hikey = some b
    · rw [if_pos hm]
      rw [hm] at h3 s3
      obtain ⟨hlo, hq⟩ := h3
      have hqk : ∀ j, j < b → hkCov q.hikey j = true := by
        intro j hj
        have hq3 := hq.2.2
        unfold hkCov
        cases hh : q.hikey with
        | none => rfl
        | some c => rw [hh] at hq3; simp; omega
      have hp2 : ∀ r ∈ p.items, r.1 < b := by
        intro r hr
        have := h.rowsCov r hr
        rw [hm] at this
        simpa [hkCov] using this
      have hs1 := hs.1
      have hs2 := hs.2.1
      rw [hm] at hs1 hs2
      refine ⟨?_, ?_, s3.2.2⟩
      · show HSh q.hikey (mergeHist s b fin seq free p q).2
        unfold mergeHist
        split
        · exact ⟨h.1, hp2, hs1, hq.1, hq.rowsCov, s3.1⟩
        · split
          · trivial
          · exact ⟨hqk, hs1, s3.1⟩
      · intro k hk hc
        have hc : hkCov q.hikey k = true := hc
        show Cov k (mergeHist s b fin seq free p q).2
        have hl : k < b → Cov k p.hist := fun hkb => hs2 k hk (by simp [hkCov, hkb])
        have hr : b ≤ k → Cov k q.hist := fun hkb => s3.2.1 k hkb hc
        unfold mergeHist
        split
        · unfold Cov
          split
          · next hb => exact ⟨hc, hr hb⟩
          · exact hl (by omega)
        · split
          · trivial
          · unfold Cov
            split
            · next hb => exact hr hb
            · exact hl (by omega)
    · rw [if_neg hm]
      refine ⟨hs.1, hs.2.1, ?_⟩
      cases hp : p.hikey with
      | none => trivial
      | some d => rw [hp] at h3 s3; exact Sh.merge h3.2 s3

theorem Sh.step {s : St} (hok : Ok 0 s.leaves) (hs : Sh 0 s.leaves) (o : Op) (hst : s.steady o = true) :
    Sh 0 (s.step o).1.leaves := by
  cases o with
  | write x k cid del v =>
    simp only [St.step]
    split
    · refine Sh.onLeaf (f := Leaf.setRow k _) ?_ ?_ hs <;> exact fun _ => rfl
    · exact hs
  | lock x k cid =>
    simp only [St.step]
    split
    · refine Sh.onLeaf (f := Leaf.setRow k _) ?_ ?_ hs <;> exact fun _ => rfl
    · exact hs
  | commit x =>
    simp only [St.step]
    split <;> exact hs
  | abort x =>
    simp only [St.step]
    split
    · refine Sh.map (f := Leaf.rollback x _) ?_ ?_ hs <;> exact fun _ => rfl
    · exact hs
  | rollbackTo x m =>
    simp only [St.step]
    split
    · refine Sh.map (f := Leaf.rollback x _) ?_ ?_ hs <;> exact fun _ => rfl
    · exact hs
  | split m fin seq free =>
    simp only [St.step]
    refine hs.split hok ?_
    intro p hp
    unfold St.steady at hst
    simp only [hp] at hst
    exact hst
  | compact k fin => exact Sh.compact hok hs
  | merge b fin seq free => exact Sh.merge hok hs
  | forget m => exact hs

/-- A page image as a snapshot needs it, from key `b` on. -/
theorem image_ok {s : St} {past : List Ev} {H : Nat → List Ver} {dead : Ver → Bool}
    (I : Inv s past H dead) (S : Sh 0 s.leaves) {c : Nat} (hc : 0 < c) (hn : c ≤ s.next) (b : Nat) :
    ∃ im, s.image c b = some im ∧ hkCov im.hikey b = true ∧ Srt im.items ∧
      (∀ r ∈ im.items, hkCov im.hikey r.1 = true) ∧
      ∀ j, b ≤ j → hkCov im.hikey j = true → ∃ pc low, c ≤ pc ∧ pc ≤ s.next ∧ low < c ∧
        Lev s.st s.oldest (H j) dead false pc low (get im.items j) := by
  obtain ⟨p, hp⟩ := I.ok.leaf (k := b)
  obtain ⟨hsh, hcov⟩ := S.leaf (Nat.zero_le _) hp
  have hnb : ∀ {l : List Leaf} {lo : Nat}, Ok lo l → leafOf l b = some p →
      Srt p.items ∧ (∀ r ∈ p.items, hkCov p.hikey r.1 = true) ∧ hkCov p.hikey b = true := by
    intro l
    induction l with
    | nil => intro lo h; exact h.elim
    | cons q t ih =>
      intro lo h hl
      rw [leafOf] at hl
      by_cases hq : q.covers b = true
      · rw [if_pos hq] at hl
        simp only [Option.some.injEq] at hl
        subst hl
        exact ⟨h.1, h.rowsCov, by rw [← covers_hkCov]; exact hq⟩
      · rw [if_neg hq] at hl
        have h3 := h.2.2
        unfold Leaf.covers at hq
        cases hk : q.hikey with
        | none => rw [hk] at hq; simp at hq
        | some d => rw [hk] at h3; exact ih h3.2 hl
  obtain ⟨h1, h2, h3⟩ := hnb I.ok hp
  unfold St.image
  rw [hp]
  simp only [Option.map_some, Option.some.injEq]
  refine ⟨_, rfl, ?_⟩
  have hw : ∀ j, wview s.leaves b j = some (p.wview b j) := by
    intro j; unfold wview; rw [hp]; rfl
  by_cases hcs : c ≤ p.csn
  · rw [if_pos hcs]
    obtain ⟨n1, n2⟩ := readUndo_neat c b p.hist p.img hsh ⟨h1, h2⟩
    refine ⟨readUndo_cov c b p.hist p.img hcov h3, n1, n2, ?_⟩
    intro j hj hcj
    have hcell := readUndo_cell c b j hj p.hist p.img hsh hcj
    obtain ⟨sy, pc, low, a1, a2, a3, L⟩ :=
      WLevs.read hc _ true 0 p.csn _ (I.wide b j _ hj (hw j)) hcs _ hcell
    refine ⟨pc, low, a1, by omega, a3, ?_⟩
    cases sy with
    | false => exact L
    | true => exact L.repc false
  · rw [if_neg hcs]
    refine ⟨h3, h1, h2, ?_⟩
    intro j hj hcj
    refine ⟨c, p.csn, Nat.le_refl _, hn, by omega, ?_⟩
    refine Lev.repc (pc := 0) false ?_
    refine (I.wide b j _ hj (hw j)).head _ ?_
    show cell p.hikey p.items j = _
    unfold cell
    rw [if_pos (show hkCov p.hikey j = true from hcj)]
    rfl

/-- The transaction an event belongs to. -/
def Ev.by : Ev → Nat
  | .wrote x _ _ _ _ _ => x
  | .undid x _ => x
  | .committed x _ => x

theorem step_ev {s : St} {o : Op} {ev : Ev} (h : (s.step o).2 = some ev) :
    o.by = some ev.by ∧ s.st ev.by = .running ∧ ∀ x q, ev = .committed x q → q = s.next := by
  cases o with
  | write x k cid del v =>
    simp only [St.step] at h
    split at h
    · next hx => cases h; exact ⟨rfl, hx.1, by intro _ _ h; cases h⟩
    · cases h
  | lock x k cid =>
    simp only [St.step] at h
    split at h <;> cases h
  | commit x =>
    simp only [St.step] at h
    split at h
    · next hx => cases h; exact ⟨rfl, hx, by intro _ _ h; cases h; rfl⟩
    · cases h
  | abort x =>
    simp only [St.step] at h
    split at h
    · next hx => cases h; exact ⟨rfl, hx, by intro _ _ h; cases h⟩
    · cases h
  | rollbackTo x m =>
    simp only [St.step] at h
    split at h
    · next hx => cases h; exact ⟨rfl, hx, by intro _ _ h; cases h⟩
    · cases h
  | split m fin seq free => simp [St.step] at h
  | compact k fin => simp [St.step] at h
  | merge b fin seq free => simp [St.step] at h
  | forget m => simp [St.step] at h

theorem step_grow (s : St) (o : Op) :
    s.next ≤ (s.step o).1.next ∧ s.oldest ≤ (s.step o).1.oldest ∧
    ∀ x, o.by ≠ some x → (s.step o).1.st x = s.st x := by
  cases o with
  | write x k cid del v => simp only [St.step]; split <;> simp
  | lock x k cid => simp only [St.step]; split <;> simp
  | commit x =>
    simp only [St.step]; split
    · refine ⟨by simp, by simp, ?_⟩
      intro y hy
      simp only [Op.by, ne_eq, Option.some.injEq] at hy
      simp only [setSt, if_neg (fun h => hy (Eq.symm h) : ¬ y = x)]
    · simp
  | abort x =>
    simp only [St.step]; split
    · refine ⟨by simp, by simp, ?_⟩
      intro y hy
      simp only [Op.by, ne_eq, Option.some.injEq] at hy
      simp only [setSt, if_neg (fun h => hy (Eq.symm h) : ¬ y = x)]
    · simp
  | rollbackTo x m => simp only [St.step]; split <;> simp
  | split m fin seq free => simp [St.step]
  | compact k fin => simp [St.step]
  | merge b fin seq free => simp [St.step]
  | forget m =>
    simp only [St.step]
    refine ⟨by simp, ?_, by simp⟩
    split <;> omega

/-- A snapshot does not change by what others do after it was taken. -/
theorem value_step {b : Book} {ev : Ev} {sn : Snap} (h1 : ev.by ≠ sn.oxid) (h2 : b.commit ev.by = none)
    (h3 : ∀ x q, ev = .committed x q → sn.csn ≤ q) (k : Nat) : (b.step ev).value sn k = b.value sn k := by
  cases ev with
  | wrote x j cid pos del v =>
    simp only [Ev.by] at h1 h2
    have hs : ∀ ch, (b.step (.wrote x j cid pos del v)).sees sn ch = b.sees sn ch := fun _ => rfl
    unfold Book.value
    simp only [hs]
    simp only [Book.step, List.find?_cons]
    have : ∀ p v, b.sees sn { oxid := x, key := j, cid := cid, pos := p, value := v } = false := by
      intro p v; simp [Book.sees, h1, h2]
    rw [this]
    simp
  | undid x m =>
    simp only [Ev.by] at h1 h2
    have hs : ∀ ch, (b.step (.undid x m)).sees sn ch = b.sees sn ch := fun _ => rfl
    unfold Book.value
    simp only [hs]
    simp only [Book.step, List.find?_filter]
    congr 2
    congr 1
    funext ch
    by_cases hx : ch.oxid = x
    · have : b.sees sn ch = false := by simp [Book.sees, hx, h1, h2]
      simp [this]
    · simp [hx]
  | committed x q =>
    simp only [Ev.by] at h1 h2
    have h3 := h3 x q rfl
    have hs : ∀ ch, (b.step (.committed x q)).sees sn ch = b.sees sn ch := by
      intro ch
      unfold Book.sees
      simp only [Book.step]
      by_cases hx : ch.oxid = x
      · simp [hx, h1, h2]; omega
      · simp [hx]
    unfold Book.value
    simp only [hs]
    rfl

theorem changes_by : ∀ (past : List Ev) (b : Book) {ch : Change}, ch ∈ (b.after past).changes →
    ch ∈ b.changes ∨ ∃ ev ∈ past, ev.by = ch.oxid
  | [], _, _, h => Or.inl h
  | ev :: t, b, ch, h => by
    rcases changes_by t (b.step ev) h with h | ⟨e, he, hb⟩
    · cases ev with
      | wrote x k cid pos del v =>
        simp only [Book.step, List.mem_cons] at h
        rcases h with h | h
        · right; exact ⟨.wrote x k cid pos del v, by simp, by rw [h]; rfl⟩
        · exact Or.inl h
      | undid x m =>
        simp only [Book.step] at h
        exact Or.inl (List.mem_filter.1 h).1
      | committed x q => exact Or.inl h
    · exact Or.inr ⟨e, by simp [he], hb⟩

theorem inRange_past {a : Nat} {e : Option Bound} {k j : Nat} (h : pastEnd e k = true) (hj : k ≤ j) :
    ¬ inRange a e j := by
  intro hr
  unfold pastEnd at h
  cases e with
  | none => simp at h
  | some b =>
    have := hr.2 b rfl
    simp only at h
    split at h
    · simp at h; omega
    · next hi => simp [hi] at h this; omega

theorem inRange_in {a : Nat} {e : Option Bound} {k : Nat} (h : pastEnd e k = false) (ha : a ≤ k) :
    inRange a e k := by
  refine ⟨ha, ?_⟩
  intro b hb
  subst hb
  unfold pastEnd at h
  simp only at h
  split at h
  · next hi => simp [hi] at h ⊢; omega
  · simp at h; omega

theorem inRange_end {a : Nat} {e : Option Bound} {h j : Nat} (he : endOnPage e h = true) (hj : h ≤ j) :
    ¬ inRange a e j := by
  intro hr
  unfold endOnPage at he
  cases e with
  | none => simp at he
  | some b =>
    have := hr.2 b rfl
    simp only [Bool.or_eq_true, decide_eq_true_eq, Bool.and_eq_true, Bool.not_eq_true'] at he
    rcases he with he | ⟨he, hi⟩
    · omega
    · simp [hi] at this; omega

/-- The rows returned are those of the range below `p`. -/
def Exact (a : Nat) (e : Option Bound) (V : Nat → Option Nat) (p : Nat) (out : List (Nat × Nat)) : Prop :=
  ∀ k v, (k, v) ∈ out ↔ inRange a e k ∧ k < p ∧ V k = some v

/-- The position a scan goes back to. -/
def Scan.back (a : Nat) (sc : Scan) : Nat :=
  match sc.cur with
  | none => a
  | some (k, true) => k + 1
  | some (k, false) => k

/-- The rows read from the page serve the snapshot. -/
def Serves (s : St) (H : Nat → List Ver) (dead : Ver → Bool) (c : Nat) (sc : Scan) : Prop :=
  ∀ j, sc.pos ≤ j → hkCov sc.hikey j = true → ∃ pc low, c ≤ pc ∧ pc ≤ s.next ∧ low < c ∧
    Lev s.st s.oldest (H j) dead false pc low (get sc.buf j)

/-- The part of the invariant of a scan about the tree. -/
structure TI (sn : Snap) (V : Nat → Option Nat) (s : St) (past : List Ev) (H : Nat → List Ver)
    (dead : Ver → Bool) : Prop where
  inv : Inv s past H dead
  sh : Sh 0 s.leaves
  quiet : ∀ ev ∈ past, ev.by ≠ sn.oxid
  run : s.st sn.oxid = .running
  pos : 0 < sn.csn
  csn : sn.csn ≤ s.next
  val : ∀ k, (Book.init.after past).value sn k = V k

/-- The part of the invariant of a scan about the iterator. -/
structure SI (sn : Snap) (a : Nat) (e : Option Bound) (V : Nat → Option Nat) (s : St)
    (H : Nat → List Ver) (dead : Ver → Bool) (sc : Scan) : Prop where
  srt : Srt sc.buf
  rows : ∀ r ∈ sc.buf, sc.pos ≤ r.1 ∧ hkCov sc.hikey r.1 = true
  serves : Serves s H dead sn.csn sc
  le : ∀ h, sc.hikey = some h → sc.pos ≤ h
  lo : a ≤ sc.pos
  lob : a ≤ sc.back a
  ex : sc.done = false → Exact a e V sc.pos sc.out
  exb : sc.done = false → Exact a e V (sc.back a) sc.out
  sound : ∀ k v, (k, v) ∈ sc.out → inRange a e k ∧ V k = some v
  order : sc.out.Pairwise (fun x y => x.1 < y.1)
  fin : sc.done = true → ∀ k v, inRange a e k → V k = some v → (k, v) ∈ sc.out

theorem TI.step {sn : Snap} {V : Nat → Option Nat} {s : St} {past : List Ev} {H : Nat → List Ver}
    {dead : Ver → Bool} (T : TI sn V s past H dead) (o : Op) (hr : s.regular o = true)
    (hst : s.steady o = true) (hby : o.by ≠ some sn.oxid) :
    ∃ H' dead', TI sn V (s.step o).1 (past ++ (s.step o).2.toList) H' dead' ∧
      Carry s H dead (s.step o).1 H' dead' := by
  obtain ⟨H', dead', I', C⟩ := T.inv.step o hr
  refine ⟨H', dead', ⟨I', T.sh.step T.inv.ok o hst, ?_, ?_, T.pos, ?_, ?_⟩, C⟩
  · intro ev hev
    rcases List.mem_append.1 hev with hev | hev
    · exact T.quiet ev hev
    · have : (s.step o).2 = some ev := by
        cases h : (s.step o).2 with
        | none => rw [h] at hev; simp at hev
        | some e => rw [h] at hev; simp at hev; rw [hev]
      have := (step_ev this).1
      intro h
      rw [h] at this
      exact hby this
  · rw [(step_grow s o).2.2 _ hby]; exact T.run
  · exact Nat.le_trans T.csn (step_grow s o).1
  · intro k
    cases h : (s.step o).2 with
    | none => simpa using T.val k
    | some ev =>
      obtain ⟨h1, h2, h3⟩ := step_ev h
      simp only [Option.toList, Book.after_append, Book.after]
      rw [value_step, T.val k]
      · intro he; rw [he] at h1; exact hby h1
      · cases hc : (Book.init.after past).commit ev.by with
        | none => rfl
        | some q => have := (T.inv.commit _ q).1 hc; rw [h2] at this; cases this
      · intro x q hq
        rw [h3 x q hq]; exact T.csn

/-- What the reader finds in a row it has read from a page. -/
theorem TI.seen {sn : Snap} {V : Nat → Option Nat} {s : St} {past : List Ev} {H : Nat → List Ver}
    {dead : Ver → Bool} (T : TI sn V s past H dead) (ho : s.oldest ≤ sn.csn) {sc : Scan}
    (S : Serves s H dead sn.csn sc) {j : Nat} (h1 : sc.pos ≤ j) (h2 : hkCov sc.hikey j = true) :
    findVersion s.st sn (get sc.buf j) = V j := by
  obtain ⟨pc, low, a1, _, a3, L⟩ := S j h1 h2
  rw [← T.val j, value_firstSeen T.inv T.run]
  refine L.read a3 ho (Or.inr ⟨a1, ?_, ?_⟩)
  · intro e he hex
    have hm : toChange j e ∈ (Book.init.after past).changes := by
      have := T.inv.changes j
      have hmem : toChange j e ∈ (H j).map (toChange j) := List.mem_map.2 ⟨e, he, rfl⟩
      rw [← this] at hmem
      exact (List.mem_filter.1 hmem).1
    rcases changes_by past Book.init hm with h | ⟨ev, hev, hb⟩
    · simp [Book.init] at h
    · exact T.quiet ev hev (by rw [hb]; exact hex)
  · intro e he hex
    obtain ⟨m, hm⟩ := T.inv.deadU e he
    exact T.quiet _ hm hex

/-- A page is read: the scan stands at its place. -/
theorem SI.load {sn : Snap} {a : Nat} {e : Option Bound} {V : Nat → Option Nat} {s : St} {past : List Ev}
    {H : Nat → List Ver} {dead : Ver → Bool} (T : TI sn V s past H dead) {sc : Scan} {b f : Nat}
    (hbf : b ≤ f) (hfb : f ≤ b + 1) (haf : a ≤ f) (lob : a ≤ sc.back a) (hd : sc.done = false)
    (ex : Exact a e V f sc.out)
    (exb : Exact a e V (sc.back a) sc.out) (order : sc.out.Pairwise (fun x y => x.1 < y.1)) :
    SI sn a e V s H dead (sc.load s sn.csn b f) := by
  obtain ⟨im, him, hcov, hsrt, hrows, hlev⟩ := image_ok T.inv T.sh T.pos T.csn b
  unfold Scan.load
  rw [him]
  simp only
  refine ⟨List.Pairwise.filter _ hsrt, ?_, ?_, ?_, haf, lob, fun _ => ex, fun _ => exb, ?_, order, ?_⟩
  · intro r hr
    obtain ⟨h1, h2⟩ := List.mem_filter.1 hr
    simp at h2
    exact ⟨h2, hrows r h1⟩
  · intro j hj hc
    simp only at hj hc ⊢
    rw [get_above hj]
    exact hlev j (by omega) hc
  · intro h hh
    simp only at hh ⊢
    rw [hh] at hcov
    simp [hkCov] at hcov
    omega
  · intro k v hkv
    have := (ex k v).1 hkv
    exact ⟨this.1, this.2.2⟩
  · intro h; simp only at h; rw [hd] at h; cases h

theorem SI.op {sn : Snap} {a : Nat} {e : Option Bound} {V : Nat → Option Nat} {s s' : St}
    {H H' : Nat → List Ver} {dead dead' : Ver → Bool} {sc : Scan} (I : SI sn a e V s H dead sc)
    (hn : s.next ≤ s'.next) (C : Carry s H dead s' H' dead') : SI sn a e V s' H' dead' sc := by
  refine ⟨I.srt, I.rows, ?_, I.le, I.lo, I.lob, I.ex, I.exb, I.sound, I.order, I.fin⟩
  intro j h1 h2
  obtain ⟨pc, low, a1, a2, a3, L⟩ := I.serves j h1 h2
  exact ⟨pc, low, a1, by omega, a3, C j pc low _ a2 L⟩

/-- Nothing to be seen before the first row of the page. -/
theorem SI.gap {sn : Snap} {a : Nat} {e : Option Bound} {V : Nat → Option Nat} {s : St} {past : List Ev}
    {H : Nat → List Ver} {dead : Ver → Bool} (T : TI sn V s past H dead) {sc : Scan}
    (S : Serves s H dead sn.csn sc) (ho : s.oldest ≤ sn.csn)
    {j : Nat} (h1 : sc.pos ≤ j) (h2 : hkCov sc.hikey j = true) (h : ∀ r ∈ sc.buf, j < r.1) : V j = none := by
  rw [← T.seen ho S h1 h2, get_none (fun r hr => by have := h r hr; omega)]
  rfl

theorem SI.start {sn : Snap} {a : Nat} {e : Option Bound} {V : Nat → Option Nat} {s : St} {past : List Ev}
    {H : Nat → List Ver} {dead : Ver → Bool} (T : TI sn V s past H dead) (ho : s.oldest ≤ sn.csn) :
    SI sn a e V s H dead (Scan.start s sn a) := by
  have hE : Exact a e V a [] := by
    intro k v
    simp only [List.not_mem_nil, false_iff]
    rintro ⟨h, h1, _⟩
    have := h.1
    omega
  have L := SI.load (a := a) (e := e) T
    (sc := { pos := a, cur := none, buf := [], hikey := none, done := false, out := [] })
    (Nat.le_refl a) (Nat.le_succ a) (Nat.le_refl a) (Nat.le_refl a) rfl hE hE List.Pairwise.nil
  unfold Scan.start
  obtain ⟨sc, hsc⟩ : ∃ sc, sc = Scan.load s sn.csn a a
    { pos := a, cur := none, buf := [], hikey := none, done := false, out := [] } := ⟨_, rfl⟩
  rw [← hsc] at L ⊢
  have hpos : sc.pos = a := by
    rw [hsc]; unfold Scan.load
    split <;> rfl
  have hout : sc.out = [] := by
    rw [hsc]; unfold Scan.load
    split <;> rfl
  simp only
  have hb : a ≤ Scan.back a { sc with cur := sc.buf.head?.map (fun r => (r.1, false)) } := by
    unfold Scan.back
    cases hbuf : sc.buf with
    | nil => simp
    | cons r t =>
      simp only [List.head?_cons, Option.map_some]
      have := (L.rows r (by rw [hbuf]; simp)).1
      omega
  refine ⟨L.srt, L.rows, L.serves, L.le, L.lo, hb, L.ex, ?_, L.sound, L.order, L.fin⟩
  intro _
  unfold Scan.back
  cases hbuf : sc.buf with
  | nil => simp only [List.head?_nil, Option.map_none]; rw [hout]; exact hE
  | cons r t =>
    simp only [List.head?_cons, Option.map_some]
    rw [hout]
    intro k v
    simp only [List.not_mem_nil, false_iff]
    rintro ⟨h, h1, h2⟩
    have hr := L.rows r (by rw [hbuf]; simp)
    have := SI.gap (e := e) (a := a) T L.serves ho (j := k) (by rw [hpos]; exact h.1) (hkCov_mono (by omega) hr.2) (by
      have hs := L.srt
      rw [hbuf] at hs ⊢
      intro r' hr'
      rcases List.mem_cons.1 hr' with rfl | hr'
      · exact h1
      · have := (List.pairwise_cons.1 hs).1 r' hr'; omega)
    rw [this] at h2; cases h2

theorem SI.refind {sn : Snap} {a : Nat} {e : Option Bound} {V : Nat → Option Nat} {s : St} {past : List Ev}
    {H : Nat → List Ver} {dead : Ver → Bool} (T : TI sn V s past H dead) {sc : Scan}
    (I : SI sn a e V s H dead sc) : SI sn a e V s H dead (sc.refind s sn a) := by
  unfold Scan.refind
  cases hd : sc.done with
  | true => simpa using I
  | false =>
    simp only [Bool.false_eq_true, if_false]
    have hexb := I.exb hd
    have hlob := I.lob
    cases hc : sc.cur with
    | none =>
      simp only
      have hb : sc.back a = a := by unfold Scan.back; rw [hc]
      exact SI.load T (Nat.le_refl a) (Nat.le_succ a) (Nat.le_refl a) hlob hd (by rw [hb] at hexb; exact hexb)
        hexb I.order
    | some p =>
      obtain ⟨k, ret⟩ := p
      simp only
      have hb : sc.back a = if ret then k + 1 else k := by
        unfold Scan.back; rw [hc]; cases ret <;> rfl
      rw [← hb]
      refine SI.load T ?_ ?_ hlob hlob hd hexb hexb I.order
      · rw [hb]; split <;> omega
      · rw [hb]; split <;> omega

theorem get_tail {k j : Nat} {c : Chain} {t : Items} (h : k ≠ j) : get ((k, c) :: t) j = get t j := by
  rw [get, if_neg h]

theorem SI.fetch {sn : Snap} {a : Nat} {e : Option Bound} {V : Nat → Option Nat} {s : St} {past : List Ev}
    {H : Nat → List Ver} {dead : Ver → Bool} (T : TI sn V s past H dead) (ho : s.oldest ≤ sn.csn) {sc : Scan}
    (I : SI sn a e V s H dead sc) : SI sn a e V s H dead (sc.fetch s sn e) := by
  unfold Scan.fetch
  cases hd : sc.done with
  | true => simpa using I
  | false =>
    simp only [Bool.false_eq_true, if_false]
    have hex := I.ex hd
    have hlow : ∀ k v, (k, v) ∈ sc.out → k < sc.pos := fun k v h => ((hex k v).1 h).2.1
    have stop : (∀ k v, inRange a e k → V k = some v → (k, v) ∈ sc.out) →
        SI sn a e V s H dead
          { pos := sc.pos, cur := sc.cur, buf := sc.buf, hikey := sc.hikey, done := true, out := sc.out } :=
      fun h => ⟨I.srt, I.rows, I.serves, I.le, I.lo, I.lob, by simp, by simp, I.sound, I.order, fun _ => h⟩
    cases hbuf : sc.buf with
    | cons r t =>
      obtain ⟨k, c⟩ := r
      simp only
      have hr := I.rows (k, c) (by rw [hbuf]; simp)
      simp only at hr
      have hsrt := I.srt
      rw [hbuf] at hsrt
      obtain ⟨hk1, hk2⟩ := List.pairwise_cons.1 hsrt
      simp only at hk1
      have hV : findVersion s.st sn c = V k := by
        have := T.seen ho I.serves hr.1 hr.2
        rw [hbuf] at this
        simpa [get] using this
      have hgap : ∀ j, sc.pos ≤ j → j < k → V j = none := by
        intro j h1 h2
        refine SI.gap (e := e) (a := a) T I.serves ho h1 (hkCov_mono (by omega) hr.2) ?_
        intro r' hr'
        rw [hbuf] at hr'
        rcases List.mem_cons.1 hr' with rfl | hr'
        · exact h2
        · have := hk1 r' hr'; omega
      have hrows' : ∀ r ∈ t, k + 1 ≤ r.1 ∧ hkCov sc.hikey r.1 = true := by
        intro r' hr'
        exact ⟨hk1 r' hr', (I.rows r' (by rw [hbuf]; simp [hr'])).2⟩
      have hserves' : ∀ j, k + 1 ≤ j → hkCov sc.hikey j = true → ∃ pc low, sn.csn ≤ pc ∧ pc ≤ s.next ∧
          low < sn.csn ∧ Lev s.st s.oldest (H j) dead false pc low (get t j) := by
        intro j h1 h2
        have := I.serves j (by omega) h2
        rw [hbuf, get_tail (by omega)] at this
        exact this
      have hle' : ∀ h, sc.hikey = some h → k + 1 ≤ h := by
        intro h hh
        have := hr.2
        rw [hh] at this
        simp [hkCov] at this
        omega
      have hlo := I.lo
      cases hf : findVersion s.st sn c with
      | none =>
        rw [hf] at hV
        simp only
        have hex' : Exact a e V (k + 1) sc.out := by
          intro j v
          rw [hex j v]
          constructor
          · rintro ⟨h1, h2, h3⟩
            exact ⟨h1, by omega, h3⟩
          · rintro ⟨h1, h2, h3⟩
            refine ⟨h1, ?_, h3⟩
            rcases Nat.lt_or_ge j sc.pos with h | h
            · exact h
            · exfalso
              rcases Nat.lt_or_ge j k with hj | hj
              · rw [hgap j h hj] at h3; cases h3
              · have : j = k := by omega
                subst this
                rw [← hV] at h3; cases h3
        refine ⟨hk2, hrows', hserves', hle', ?_, ?_, fun _ => hex', fun _ => hex', I.sound, I.order, ?_⟩
        · show a ≤ k + 1; omega
        · show a ≤ k + 1; omega
        · intro h; cases h
      | some v =>
        rw [hf] at hV
        simp only
        cases hp : pastEnd e k with
        | true =>
          simp only [if_true]
          rw [hbuf] at stop
          refine stop ?_
          intro j w hj hw
          rw [hex j w]
          refine ⟨hj, ?_, hw⟩
          rcases Nat.lt_or_ge j sc.pos with h | h
          · exact h
          · exfalso
            rcases Nat.lt_or_ge j k with hjk | hjk
            · rw [hgap j h hjk] at hw; cases hw
            · exact inRange_past hp hjk hj
        | false =>
          simp only [Bool.false_eq_true, if_false]
          have hin : inRange a e k := inRange_in hp (by omega)
          have hex' : Exact a e V (k + 1) (sc.out ++ [(k, v)]) := by
            intro j w
            rw [List.mem_append, hex j w]
            simp only [List.mem_singleton, Prod.mk.injEq]
            constructor
            · rintro (⟨h1, h2, h3⟩ | ⟨h1, h2⟩)
              · exact ⟨h1, by omega, h3⟩
              · subst h1; subst h2
                exact ⟨hin, by omega, hV.symm⟩
            · rintro ⟨h1, h2, h3⟩
              rcases Nat.lt_or_ge j sc.pos with h | h
              · exact Or.inl ⟨h1, h, h3⟩
              · rcases Nat.lt_or_ge j k with hj | hj
                · rw [hgap j h hj] at h3; cases h3
                · have : j = k := by omega
                  subst this
                  rw [← hV] at h3
                  exact Or.inr ⟨rfl, by simpa using h3.symm⟩
          refine ⟨hk2, hrows', hserves', hle', ?_, ?_, fun _ => hex', fun _ => hex', ?_, ?_, ?_⟩
          · show a ≤ k + 1; omega
          · show a ≤ k + 1; omega
          · intro j w hjw
            have := (hex' j w).1 hjw
            exact ⟨this.1, this.2.2⟩
          · refine List.pairwise_append.2 ⟨I.order, List.pairwise_singleton _ _, ?_⟩
            intro x hx y hy
            simp only [List.mem_singleton] at hy
            subst hy
            have := hlow x.1 x.2 hx
            simp only
            omega
          · intro h; cases h
    | nil =>
      simp only
      have hgap : ∀ j, sc.pos ≤ j → hkCov sc.hikey j = true → V j = none := by
        intro j h1 h2
        exact SI.gap (e := e) (a := a) T I.serves ho h1 h2 (by rw [hbuf]; simp)
      cases hh : sc.hikey with
      | none =>
        simp only
        rw [hbuf, hh] at stop
        refine stop ?_
        intro j w hj hw
        rw [hex j w]
        refine ⟨hj, ?_, hw⟩
        rcases Nat.lt_or_ge j sc.pos with h | h
        · exact h
        · rw [hgap j h (by rw [hh]; rfl)] at hw; cases hw
      | some h =>
        simp only
        have hph := I.le h hh
        have hexh : Exact a e V h sc.out := by
          intro j w
          rw [hex j w]
          constructor
          · rintro ⟨h1, h2, h3⟩; exact ⟨h1, by omega, h3⟩
          · rintro ⟨h1, h2, h3⟩
            refine ⟨h1, ?_, h3⟩
            rcases Nat.lt_or_ge j sc.pos with h' | h'
            · exact h'
            · rw [hgap j h' (by rw [hh]; simp [hkCov, h2])] at h3; cases h3
        cases hp : endOnPage e h with
        | true =>
          simp only [if_true]
          rw [hbuf] at stop
          rw [hh] at stop
          refine stop ?_
          intro j w hj hw
          rw [hexh j w]
          refine ⟨hj, ?_, hw⟩
          rcases Nat.lt_or_ge j h with h' | h'
          · exact h'
          · exact absurd hj (inRange_end hp h')
        | false =>
          simp only [Bool.false_eq_true, if_false]
          have := I.lo
          exact SI.load T (Nat.le_refl h) (Nat.le_succ h) (by omega) I.lob hd hexh (I.exb hd) I.order

theorem scanRun_oldest (sn : Snap) (a : Nat) (e : Option Bound) : ∀ (es : List SEv) (s : St) (sc : Scan),
    s.oldest ≤ (scanRun sn a e es s sc).1.oldest
  | [], _, _ => Nat.le_refl _
  | .op o :: t, s, sc => by
    have := scanRun_oldest sn a e t (s.step o).1 sc
    have h := (step_grow s o).2.1
    simp only [scanRun]
    omega
  | .fetch :: t, s, sc => scanRun_oldest sn a e t s _
  | .refind :: t, s, sc => scanRun_oldest sn a e t s _

theorem SI.run {sn : Snap} {a : Nat} {e : Option Bound} {V : Nat → Option Nat} : ∀ (es : List SEv) {s : St}
    {past : List Ev} {H : Nat → List Ver} {dead : Ver → Bool} {sc : Scan}, TI sn V s past H dead →
    SI sn a e V s H dead sc → s.regularRun (opsOf es) = true → s.steadyRun (opsOf es) = true →
    (∀ o ∈ opsOf es, o.by ≠ some sn.oxid) → (scanRun sn a e es s sc).1.oldest ≤ sn.csn →
    ∃ past' H' dead', TI sn V (scanRun sn a e es s sc).1 past' H' dead' ∧
      SI sn a e V (scanRun sn a e es s sc).1 H' dead' (scanRun sn a e es s sc).2
  | [], s, past, H, dead, sc, T, I, _, _, _, _ => ⟨past, H, dead, T, I⟩
  | .op o :: t, s, past, H, dead, sc, T, I, hr, hst, hby, ho => by
    simp only [opsOf, St.regularRun, Bool.and_eq_true] at hr
    simp only [opsOf, St.steadyRun, Bool.and_eq_true] at hst
    obtain ⟨H', dead', T', C⟩ := T.step o hr.1 hst.1 (hby o (by simp [opsOf]))
    exact SI.run t T' (I.op (step_grow s o).1 C) hr.2 hst.2
      (fun o' ho' => hby o' (by simp [opsOf, ho'])) ho
  | .fetch :: t, s, past, H, dead, sc, T, I, hr, hst, hby, ho => by
    have hle := scanRun_oldest sn a e t s (sc.fetch s sn e)
    simp only [scanRun] at ho ⊢
    exact SI.run t T (I.fetch T (by omega)) hr hst hby ho
  | .refind :: t, s, past, H, dead, sc, T, I, hr, hst, hby, ho => by
    exact SI.run t T (I.refind T) hr hst hby ho

theorem scanRun_append (sn : Snap) (a : Nat) (e : Option Bound) : ∀ (es es' : List SEv) (s : St) (sc : Scan),
    scanRun sn a e (es ++ es') s sc =
      scanRun sn a e es' (scanRun sn a e es s sc).1 (scanRun sn a e es s sc).2
  | [], _, _, _ => rfl
  | .op o :: t, es', s, sc => scanRun_append sn a e t es' (s.step o).1 sc
  | .fetch :: t, es', s, sc => scanRun_append sn a e t es' s _
  | .refind :: t, es', s, sc => scanRun_append sn a e t es' s _

/-- All high keys in the images of a page. -/
def Hist.marks : Hist → List Nat
  | .nil => []
  | .full _ hk _ older => hk.toList ++ older.marks
  | .splitDiff _ _ older => older.marks
  | .merge _ lhk _ lolder _ rhk _ rolder => lhk :: rhk.toList ++ lolder.marks ++ rolder.marks
  | .mergeDiff b _ lolder _ rolder => b :: lolder.marks ++ rolder.marks

/-- All high keys in the tree. -/
def St.marks (s : St) : List Nat := s.leaves.flatMap (fun p => p.hikey.toList ++ p.hist.marks)

theorem readUndo_marks (c k : Nat) : ∀ (h : Hist) (im : Img) (m : Nat),
    (readUndo c k h im).hikey = some m → im.hikey = some m ∨ m ∈ h.marks := by
  intro h
  induction h with
  | nil => intro im m hm; exact Or.inl hm
  | full csn hk its older ih =>
    intro im m hm
    simp only [readUndo] at hm
    right
    split at hm
    · rcases ih _ m hm with h | h
      · simp only at h; simp [Hist.marks, h]
      · simp [Hist.marks, h]
    · simp only at hm; simp [Hist.marks, hm]
  | splitDiff b csn older ih =>
    intro im m hm
    simp only [readUndo] at hm
    split at hm
    · exact ih { im with csn := csn } m hm
    · exact Or.inl hm
  | merge lcsn lhk lits lolder rcsn rhk rits rolder ihl ihr =>
    intro im m hm
    simp only [readUndo] at hm
    right
    split at hm <;> split at hm
    · rcases ihr _ m hm with h | h
      · simp only at h; simp [Hist.marks, h]
      · simp [Hist.marks, h]
    · simp only at hm; simp [Hist.marks, hm]
    · rcases ihl _ m hm with h | h
      · simp only [Option.some.injEq] at h; simp [Hist.marks, h]
      · simp [Hist.marks, h]
    · simp only [Option.some.injEq] at hm; simp [Hist.marks, hm]
  | mergeDiff b lcsn lolder rcsn rolder ihl ihr =>
    intro im m hm
    simp only [readUndo] at hm
    split at hm <;> split at hm
    · rcases ihr { hikey := im.hikey, csn := rcsn, items := above b im.items } m hm with h | h
      · exact Or.inl h
      · right; simp [Hist.marks, h]
    · exact Or.inl hm
    · rcases ihl _ m hm with h | h
      · simp only [Option.some.injEq] at h; right; simp [Hist.marks, h]
      · right; simp [Hist.marks, h]
    · simp only [Option.some.injEq] at hm; right; simp [Hist.marks, hm]

theorem leafOf_mem {k : Nat} : ∀ {l : List Leaf} {p : Leaf}, leafOf l k = some p → p ∈ l
  | [], p, h => by simp [leafOf] at h
  | q :: t, p, h => by
    rw [leafOf] at h
    split at h
    · simp only [Option.some.injEq] at h; simp [h]
    · exact List.mem_cons.2 (Or.inr (leafOf_mem h))

theorem image_marks {s : St} {c b m : Nat} {im : Img} (h : s.image c b = some im)
    (hm : im.hikey = some m) : m ∈ s.marks := by
  unfold St.image at h
  cases hl : leafOf s.leaves b with
  | none => rw [hl] at h; simp at h
  | some p =>
    rw [hl] at h
    simp only [Option.map_some, Option.some.injEq] at h
    unfold St.marks
    rw [List.mem_flatMap]
    refine ⟨p, leafOf_mem hl, ?_⟩
    rw [List.mem_append]
    split at h
    · subst h
      rcases readUndo_marks c b p.hist p.img m hm with h | h
      · left; rw [show p.hikey = some m from h]; simp
      · exact Or.inr h
    · subst h
      left; rw [show p.hikey = some m from hm]; simp

/-- How far a scan has to go. -/
def Scan.togo (s : St) (sc : Scan) : Nat :=
  match sc.hikey with
  | none => 0
  | some h => (s.marks.filter (fun m => decide (h < m))).length + 1

theorem filter_lt {l : List Nat} {h h' : Nat} (hlt : h < h') (hm : h' ∈ l) :
    (l.filter (fun m => decide (h' < m))).length < (l.filter (fun m => decide (h < m))).length := by
  have key : ∀ l : List Nat, (l.filter (fun m => decide (h' < m))).length ≤
      (l.filter (fun m => decide (h < m))).length := by
    intro l
    induction l with
    | nil => simp
    | cons x l ih =>
      simp only [List.filter_cons]
      by_cases h1 : h' < x
      · rw [if_pos (by simpa using h1), if_pos (by simp; omega)]
        simpa using ih
      · rw [if_neg (by simpa using h1)]
        split
        · simp only [List.length_cons]; omega
        · exact ih
  induction l with
  | nil => simp at hm
  | cons x l ih =>
    simp only [List.filter_cons]
    by_cases h1 : h' < x
    · rw [if_pos (by simpa using h1), if_pos (by simp; omega)]
      rcases List.mem_cons.1 hm with rfl | hm
      · omega
      · have := ih hm; simpa using this
    · rw [if_neg (by simpa using h1)]
      rcases List.mem_cons.1 hm with rfl | hm
      · rw [if_pos (by simpa using hlt)]
        have := key l
        simp only [List.length_cons]; omega
      · have := ih hm
        split
        · simp only [List.length_cons]; omega
        · exact this

/-- Turns without anything else going on. -/
def turns (s : St) (sn : Snap) (e : Option Bound) : Nat → Scan → Scan
  | 0, sc => sc
  | n + 1, sc => turns s sn e n (sc.fetch s sn e)

theorem scanRun_turns (sn : Snap) (a : Nat) (e : Option Bound) : ∀ (n : Nat) (s : St) (sc : Scan),
    scanRun sn a e (List.replicate n .fetch) s sc = (s, turns s sn e n sc)
  | 0, _, _ => rfl
  | n + 1, s, sc => by
    rw [List.replicate_succ]
    exact scanRun_turns sn a e n s _

theorem SI.ends {sn : Snap} {a : Nat} {e : Option Bound} {V : Nat → Option Nat} {s : St} {past : List Ev}
    {H : Nat → List Ver} {dead : Ver → Bool} (T : TI sn V s past H dead) (ho : s.oldest ≤ sn.csn) :
    ∀ (g l : Nat) {sc : Scan}, SI sn a e V s H dead sc → sc.togo s ≤ g → sc.buf.length ≤ l →
      ∃ n, (turns s sn e n sc).done = true := by
  intro g
  induction g with
  | zero =>
    intro l
    induction l with
    | zero =>
      intro sc I hg hl
      cases hd : sc.done with
      | true => exact ⟨0, hd⟩
      | false =>
        refine ⟨1, ?_⟩
        have hb : sc.buf = [] := List.length_eq_zero_iff.1 (by omega)
        have hh : sc.hikey = none := by
          unfold Scan.togo at hg
          cases hh : sc.hikey with
          | none => rfl
          | some h => rw [hh] at hg; simp at hg
        simp [turns, Scan.fetch, hd, hb, hh]
    | succ l ih =>
      intro sc I hg hl
      cases hd : sc.done with
      | true => exact ⟨0, hd⟩
      | false =>
        have I' := I.fetch T ho
        have h1 : (sc.fetch s sn e).done = true ∨
            ((sc.fetch s sn e).togo s ≤ 0 ∧ (sc.fetch s sn e).buf.length ≤ l) := by
          unfold Scan.togo at hg
          unfold Scan.fetch
          cases hh : sc.hikey with
          | some h => rw [hh] at hg; simp at hg
          | none =>
            rw [hd]
            simp only [Bool.false_eq_true, if_false]
            cases hb : sc.buf with
            | nil => left; rfl
            | cons r t =>
              rw [hb] at hl
              simp only [List.length_cons] at hl
              simp only
              split
              · right; simp [Scan.togo]; omega
              · split
                · left; rfl
                · right; simp [Scan.togo]; omega
        rcases h1 with h1 | ⟨h1, h2⟩
        · exact ⟨1, h1⟩
        · obtain ⟨n, hn⟩ := ih I' h1 h2
          exact ⟨n + 1, hn⟩
  | succ g ihg =>
    intro l
    induction l with
    | zero =>
      intro sc I hg hl
      cases hd : sc.done with
      | true => exact ⟨0, hd⟩
      | false =>
        have I' := I.fetch T ho
        have hb : sc.buf = [] := List.length_eq_zero_iff.1 (by omega)
        have h1 : (sc.fetch s sn e).done = true ∨ (sc.fetch s sn e).togo s ≤ g := by
          unfold Scan.fetch
          rw [hd, hb]
          simp only [Bool.false_eq_true, if_false]
          cases hh : sc.hikey with
          | none => left; rfl
          | some h =>
            simp only
            split
            · left; rfl
            · right
              obtain ⟨im, him, hcov, _⟩ := image_ok T.inv T.sh T.pos T.csn h
              unfold Scan.load
              rw [him]
              unfold Scan.togo at hg ⊢
              rw [hh] at hg
              simp only at hg ⊢
              cases hi : im.hikey with
              | none => simp
              | some h' =>
                rw [hi] at hcov
                have hlt : h < h' := by simpa [hkCov] using hcov
                have := filter_lt hlt (image_marks him hi)
                simp only; omega
        rcases h1 with h1 | h1
        · exact ⟨1, h1⟩
        · obtain ⟨n, hn⟩ := ihg _ I' h1 (Nat.le_refl _)
          exact ⟨n + 1, hn⟩
    | succ l ih =>
      intro sc I hg hl
      cases hd : sc.done with
      | true => exact ⟨0, hd⟩
      | false =>
        have I' := I.fetch T ho
        cases hb : sc.buf with
        | nil => exact ih I hg (by rw [hb]; simp)
        | cons r t =>
          have h1 : (sc.fetch s sn e).done = true ∨
              ((sc.fetch s sn e).togo s ≤ g + 1 ∧ (sc.fetch s sn e).buf.length ≤ l) := by
            rw [hb] at hl
            simp only [List.length_cons] at hl
            unfold Scan.fetch
            rw [hd, hb]
            simp only [Bool.false_eq_true, if_false]
            unfold Scan.togo at hg ⊢
            split
            · right; exact ⟨hg, by simp only; omega⟩
            · split
              · left; rfl
              · right; exact ⟨hg, by simp only; omega⟩
          rcases h1 with h1 | ⟨h1, h2⟩
          · exact ⟨1, h1⟩
          · obtain ⟨n, hn⟩ := ih I' h1 h2
            exact ⟨n + 1, hn⟩

end Verif.Visible
