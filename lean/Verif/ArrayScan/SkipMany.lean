import Verif.ArrayScan.SkipProofs

/-! # Several skip arrays on columns without NULL: proofs -/

namespace Verif.ArrayScan

/-- The columns of the skip arrays are there and not NULL; only for the proofs, not from the
source. -/
def NoNull : List Field → Row → Prop
  | [], _ => True
  | _ :: fs, some _ :: r => NoNull fs r
  | _ :: _, _ => False

/-- The same for all of these columns but the first; only for the proofs, not from the source. -/
def TailOk (fs : List Field) (r : Row) : Prop := ∃ x r', r = x :: r' ∧ NoNull fs r'

theorem NoNull.tailOk {f : Field} {fs : List Field} {r : Row} (h : NoNull (f :: fs) r) :
    TailOk fs r := by
  cases r with
  | nil => simp [NoNull] at h
  | cons x r =>
    cases x with
    | none => simp [NoNull] at h
    | some v => exact ⟨_, _, rfl, h⟩

theorem inRest_eq (f : Field) (k : Skip) (v : Int) :
    inRest f k (some v) = inFirst f k (some v) := by
  cases k <;> simp [inRest, inFirst]

/-- `inRests` on columns without NULL is what `inRange` asks without its predicate. -/
theorem inRange_rests (fs : List Field) (ks : List Skip) (P : Row → Bool) (r : Row)
    (hn : NoNull fs r) : inRange fs ks P r = (inRests fs ks r && P r) := by
  cases fs with
  | nil => simp [inRange, inRests]
  | cons f fs =>
    cases r with
    | nil => simp [NoNull] at hn
    | cons x r =>
      cases x with
      | none => simp [NoNull] at hn
      | some v =>
        cases ks with
        | nil => simp [inRange, inRests]
        | cons k ks => simp [inRange, inRests, inRest_eq]

theorem rests_start (fwd : Bool) : ∀ (fs : List Field) (r : Row),
    inRests fs (fs.map (Skip.start fwd)) r = true
  | [], r => by simp [inRests]
  | f :: fs, [] => by simp [inRests]
  | f :: fs, x :: r => by
    simp only [List.map_cons, inRests, rests_start fwd fs r, Bool.and_true]
    cases fwd <;> cases h : f.nullfirst <;> simp [Skip.start, inRest, h]

theorem advance_starts (fwd : Bool) : ∀ fs : List Field,
    skipAdvance fwd fs (fs.map (Skip.start fwd)) = (fs.map (Skip.start fwd), false)
  | [] => rfl
  | f :: fs => by
    simp only [List.map_cons, skipAdvance, advance_starts fwd fs]
    have := start_open fwd f
    cases h : Skip.start fwd f <;> simp_all [Skip.open]

theorem advance_false (fwd : Bool) : ∀ (fs : List Field) (ks ks' : List Skip),
    ks.length = fs.length → skipAdvance fwd fs ks = (ks', false) → ks' = fs.map (Skip.start fwd)
  | [], [], _, _, e => by simp [skipAdvance] at e; simp [e]
  | [], _ :: _, _, h, _ => by simp at h
  | _ :: _, [], _, h, _ => by simp at h
  | f :: fs, k :: ks, ks', h, e => by
    rcases hA : skipAdvance fwd fs ks with ⟨q, b⟩
    have ih := advance_false fwd fs ks q (by simpa using h)
    simp only [skipAdvance, hA] at e
    cases b with
    | true => simp at e
    | false =>
      have := ih hA
      subst this
      cases k <;> simp only [Prod.mk.injEq, Bool.true_eq_false, and_false, and_true] at e
      all_goals rw [← e, List.map_cons]

theorem advance_len (fwd : Bool) : ∀ (fs : List Field) (ks : List Skip),
    ks.length = fs.length → (skipAdvance fwd fs ks).1.length = fs.length
  | [], [], _ => rfl
  | [], _ :: _, h => by simp at h
  | _ :: _, [], h => by simp at h
  | f :: fs, k :: ks, h => by
    have ih := advance_len fwd fs ks (by simpa using h)
    rcases hA : skipAdvance fwd fs ks with ⟨q, b⟩
    rw [hA] at ih
    have hk : ks.length = fs.length := by simpa using h
    simp only [skipAdvance, hA]
    cases b with
    | true => simpa using ih
    | false => cases k <;> simpa using ih

theorem observe_len : ∀ (ks : List Skip) (r : Row), (observe ks r).length = ks.length
  | [], _ => by simp [observe]
  | _ :: _, [] => by simp [observe]
  | k :: ks, some v :: r => by simp [observe, observe_len ks r]
  | k :: ks, none :: r => by simp [observe, observe_len ks r]

theorem scanRange_len (fs : List Field) (ks : List Skip) (P : Row → Bool) (rows : List Row) :
    (scanRange fs ks P rows).2.length = ks.length := by
  unfold scanRange
  generalize rangeRows fs ks P rows = l
  by_cases h : ks.any Skip.open = true
  · simp only [h, if_true]
    cases l with
    | nil => rfl
    | cons t l =>
      simp only []
      by_cases e : observe ks t = ks
      · rw [if_pos e]
      · rw [if_neg e]; exact observe_len ks t
  · simp only [h]
    rfl

/-- The rows with `w` in the first column, without it; only for the proofs, not from
the source. -/
def sub (w : Option Int) (rows : List Row) : List Row :=
  (rows.filter fun r => decide (col0 r = w)).map List.tail

theorem rangeRows_at (f : Field) (fs : List Field) (k : Skip) (w : Option Int) (ks : List Skip)
    (P : Row → Bool) (hw : inFirst f k w = true) :
    ∀ (rows : List Row), (∀ r ∈ rows, TailOk fs r) →
      (∀ r ∈ rows, P r = true → inFirst f k (col0 r) = true → col0 r = w) →
      rangeRows (f :: fs) (k :: ks) P rows =
        (rangeRows fs ks (fun r => P (w :: r)) (sub w rows)).map (w :: ·)
  | [], _, _ => rfl
  | r :: rows, hn, hk => by
    have ih := rangeRows_at f fs k w ks P hw rows (fun x hx => hn x (List.mem_cons_of_mem _ hx))
      fun x hx => hk x (List.mem_cons_of_mem _ hx)
    obtain ⟨v, r, rfl, hr⟩ := hn r (by simp)
    have hk := hk (v :: r) (by simp)
    unfold rangeRows sub at *
    by_cases e : v = w
    · subst e
      have hc : (fun r => decide (col0 r = v)) (v :: r) = true := by
        simp [col0, valueOf]
      rw [List.filter_cons_of_pos (p := fun r => decide (col0 r = v)) hc, List.map_cons,
        List.tail_cons]
      have hin : inRange (f :: fs) (k :: ks) P (v :: r) =
          inRange fs ks (fun r => P (v :: r)) r := by
        rw [inRange_rests fs ks _ r hr]
        simp [inRange, hw]
      cases hb : inRange fs ks (fun r => P (v :: r)) r with
      | true =>
        rw [List.filter_cons_of_pos (by rw [hin]; exact hb), List.filter_cons_of_pos hb, ih]
        rfl
      | false =>
        rw [List.filter_cons_of_neg (by rw [hin, hb]; simp),
          List.filter_cons_of_neg (by rw [hb]; simp), ih]
    · have hc : ¬ (fun r => decide (col0 r = w)) (v :: r) = true := by
        simp [col0, valueOf, e]
      have hin : ¬ inRange (f :: fs) (k :: ks) P (v :: r) = true := by
        intro h
        simp only [inRange, Bool.and_eq_true] at h
        exact e (hk h.2 h.1.1)
      rw [List.filter_cons_of_neg (p := fun r => decide (col0 r = w)) hc,
        List.filter_cons_of_neg hin, ih]

theorem observe_closed : ∀ (ss : List Skip) (t : Row), ¬ ss.any Skip.open = true →
    observe ss t = ss
  | [], t, _ => by simp [observe]
  | s :: ss, [], _ => rfl
  | s :: ss, y :: t, h => by
    simp only [List.any_cons, Bool.or_eq_true, not_or] at h
    have ih := observe_closed ss t h.2
    cases y <;> simp [observe, ih, h.1]

/-- Ranges of one value of the first column are ranges of the columns behind it: the value of its
skip array, or NULL if nothing else is left of the range of the first column. -/
theorem scanRange_at (f : Field) (fs : List Field) (k : Skip) (w : Option Int) (ks : List Skip)
    (P : Row → Bool) (rows : List Row) (hw : inFirst f k w = true)
    (ho : k.open = true → w = none) (hn : ∀ r ∈ rows, TailOk fs r)
    (hk : ∀ r ∈ rows, P r = true → inFirst f k (col0 r) = true → col0 r = w) :
    scanRange (f :: fs) (k :: ks) P rows =
      ((scanRange fs ks (fun r => P (w :: r)) (sub w rows)).1.map (w :: ·),
        k :: (scanRange fs ks (fun r => P (w :: r)) (sub w rows)).2) := by
  unfold scanRange
  simp only [rangeRows_at f fs k w _ P hw rows hn hk]
  generalize hl : rangeRows fs ks (fun r => P (w :: r)) (sub w rows) = l
  have hobs : ∀ t, observe (k :: ks) (w :: t) = k :: observe ks t := by
    intro t
    cases w with
    | none => simp [observe]
    | some v =>
      have : ¬ k.open = true := fun h => by cases ho h
      simp [observe, this]
  by_cases h : ks.any Skip.open = true
  · have h' : (k :: ks).any Skip.open = true := by simp only [List.any_cons, h, Bool.or_true]
    simp only [h, h', if_true]
    cases l with
    | nil => rfl
    | cons t l =>
      simp only [List.map_cons, hobs]
      by_cases e : observe ks t = ks
      · rw [if_pos e, e]
        simp
      · rw [if_neg e]
        have : ¬ (k :: observe ks t = k :: ks) := by simpa using e
        rw [if_neg this, rangeRows_at f fs k w _ P hw rows hn hk]
  · simp only [h]
    by_cases h' : (k :: ks).any Skip.open = true
    · simp only [h', if_true]
      cases l with
      | nil => rfl
      | cons t l =>
        simp only [List.map_cons, hobs, observe_closed ks t h, if_true]
        rfl
    · simp only [h']
      rfl

/-- At a value. -/
theorem scanRange_val (f : Field) (fs : List Field) (w : Int) (ks : List Skip) (P : Row → Bool)
    (rows : List Row) (hn : ∀ r ∈ rows, TailOk fs r) :
    scanRange (f :: fs) (.at w :: ks) P rows =
      ((scanRange fs ks (fun r => P (some w :: r)) (sub (some w) rows)).1.map (some w :: ·),
        .at w :: (scanRange fs ks (fun r => P (some w :: r)) (sub (some w) rows)).2) :=
  scanRange_at f fs (.at w) (some w) ks P rows (by simp [inFirst])
    (by intro h; cases h) hn (by intro r _ _ h; simpa [inFirst] using h)

/-- At the NULL band, when it is what is left. -/
theorem runs_null {fwd : Bool} {f : Field} {fs : List Field} {k : Skip} {P : Row → Bool}
    {rows : List Row} (hn : ∀ r ∈ rows, TailOk fs r) (hko : k.open = true)
    (hw : inFirst f k none = true)
    (hk : ∀ r ∈ rows, P r = true → inFirst f k (col0 r) = true → col0 r = none)
    {ks : List Skip} {out : List Row}
    (h : SkipRuns fwd fs (fun r => P (none :: r)) (sub none rows) ks out) :
    SkipRuns fwd (f :: fs) P rows (k :: ks) (out.map (none :: ·)) := by
  induction h with
  | @stop ks ks' e =>
    have hs := scanRange_at f fs k none ks P rows hw (fun _ => rfl) hn hk
    have := SkipRuns.stop (fwd := fwd) (fs := f :: fs) (P := P) (rows := rows)
      (ks := k :: ks) (ks' := Skip.start fwd f :: ks') (by
        rw [hs]
        simp only [skipAdvance, e]
        cases k <;> simp_all [Skip.open])
    rw [hs] at this
    exact this
  | @step ks ks' out e _ ih =>
    have hs := scanRange_at f fs k none ks P rows hw (fun _ => rfl) hn hk
    have := SkipRuns.step (fwd := fwd) (fs := f :: fs) (P := P) (rows := rows)
      (ks := k :: ks) (ks' := k :: ks') (by
        rw [hs]
        simp only [skipAdvance, e]) ih
    rw [hs] at this
    simpa using this

theorem runs_lift {fwd : Bool} {f : Field} {fs : List Field} {w : Int} {P : Row → Bool}
    {rows T : List Row} (hn : ∀ r ∈ rows, TailOk fs r)
    (hT : SkipRuns fwd (f :: fs) P rows (trans fwd w :: fs.map (Skip.start fwd)) T)
    {ks : List Skip} {out : List Row}
    (h : SkipRuns fwd fs (fun r => P (some w :: r)) (sub (some w) rows) ks out)
    (hk : ks.length = fs.length) :
    SkipRuns fwd (f :: fs) P rows (.at w :: ks) (out.map (some w :: ·) ++ T) := by
  induction h with
  | @stop ks ks' e =>
    have hs := scanRange_val f fs w ks P rows hn
    have hq := advance_false fwd fs _ _ ((scanRange_len _ _ _ _).trans hk) e
    subst hq
    have := SkipRuns.step (fwd := fwd) (fs := f :: fs) (P := P) (rows := rows)
      (ks := .at w :: ks) (ks' := trans fwd w :: fs.map (Skip.start fwd)) (by
        rw [hs]
        simp only [skipAdvance, e]
        cases fwd <;> rfl) hT
    rw [hs] at this
    exact this
  | @step ks ks' out e _ ih =>
    have hs := scanRange_val f fs w ks P rows hn
    have hl : ks'.length = fs.length := by
      have := advance_len fwd fs _ ((scanRange_len fs ks (fun r => P (some w :: r))
        (sub (some w) rows)).trans hk)
      rw [e] at this
      exact this
    have := SkipRuns.step (fwd := fwd) (fs := f :: fs) (P := P) (rows := rows)
      (ks := .at w :: ks) (ks' := .at w :: ks') (by
        rw [hs]
        simp only [skipAdvance, e]) (ih hl)
    rw [hs] at this
    simpa using this

theorem runs_congr {fwd : Bool} {fs : List Field} {P : Row → Bool} {rows : List Row}
    {ks ks' : List Skip} {out : List Row} (e : scanRange fs ks P rows = scanRange fs ks' P rows)
    (h : SkipRuns fwd fs P rows ks' out) : SkipRuns fwd fs P rows ks out := by
  cases h with
  | stop h1 =>
    rw [← e] at h1 ⊢
    exact SkipRuns.stop h1
  | step h1 h2 =>
    rw [← e] at h1 ⊢
    exact SkipRuns.step h1 h2

theorem inRange_open (fwd : Bool) (f : Field) (fs : List Field) (k : Skip) (P : Row → Bool)
    (r : Row) (hn : TailOk fs r) :
    inRange (f :: fs) (k :: fs.map (Skip.start fwd)) P r = (inFirst f k (col0 r) && P r) := by
  obtain ⟨x, r, rfl, _⟩ := hn
  simp [inRange, rests_start, col0, valueOf]

theorem rangeRows_open (fwd : Bool) (f : Field) (fs : List Field) (k : Skip) (P : Row → Bool)
    (rows : List Row) (hn : ∀ r ∈ rows, TailOk fs r) :
    rangeRows (f :: fs) (k :: fs.map (Skip.start fwd)) P rows =
      (rows.filter P).filter fun r => inFirst f k (col0 r) := by
  rw [rangeRows, List.filter_filter]
  exact List.filter_congr fun r h => inRange_open fwd f fs k P r (hn r h)

/-- The probe and the range opened after it are as if the value had been known before. -/
theorem scanRange_probe (fwd : Bool) (f : Field) (fs : List Field) (k : Skip) (hk : k.open = true)
    (P : Row → Bool) (rows : List Row) (w : Int) (t : Row) (l l' : List Row)
    (h1 : rangeRows (f :: fs) (k :: fs.map (Skip.start fwd)) P rows = (some w :: t) :: l)
    (h2 : rangeRows (f :: fs) (.at w :: fs.map (Skip.start fwd)) P rows = (some w :: t) :: l') :
    scanRange (f :: fs) (k :: fs.map (Skip.start fwd)) P rows =
      scanRange (f :: fs) (.at w :: fs.map (Skip.start fwd)) P rows := by
  generalize fs.map (Skip.start fwd) = ss at h1 h2
  have o1 : observe (k :: ss) (some w :: t) = .at w :: observe ss t := by simp [observe, hk]
  have o2 : observe (.at w :: ss) (some w :: t) = .at w :: observe ss t := by
    simp [observe, Skip.open]
  have hne : ¬ (Skip.at w :: observe ss t = k :: ss) := by
    intro e
    simp only [List.cons.injEq] at e
    rw [← e.1] at hk
    cases hk
  have hany : (k :: ss).any Skip.open = true := by simp [hk]
  have e1 : scanRange (f :: fs) (k :: ss) P rows =
      (rangeRows (f :: fs) (.at w :: observe ss t) P rows, .at w :: observe ss t) := by
    simp only [scanRange, hany, if_true, h1, o1, hne, if_false]
  rw [e1]
  unfold scanRange
  by_cases h : (Skip.at w :: ss).any Skip.open = true
  · simp only [h, if_true, h2, o2]
    by_cases e : Skip.at w :: observe ss t = Skip.at w :: ss
    · rw [if_pos e, e, h2]
    · rw [if_neg e]
  · have hs : observe ss t = ss := by
      apply observe_closed
      intro h'
      exact h (by simp only [List.any_cons, h', Bool.or_true])
    rw [if_neg h, hs]

theorem filter_at (w : Option Int) (P : Row → Bool) :
    ∀ rows : List Row, (∀ r ∈ rows, r ≠ []) →
      ((rows.filter P).filter fun r => decide (col0 r = w)) =
        ((sub w rows).filter fun r => P (w :: r)).map (w :: ·)
  | [], _ => rfl
  | r :: rows, hne => by
    have ih := filter_at w P rows fun x hx => hne x (List.mem_cons_of_mem _ hx)
    have hne := hne r (by simp)
    unfold sub at *
    rw [List.filter_filter] at ih ⊢
    by_cases e : col0 r = w
    · cases r with
      | nil => exact absurd rfl hne
      | cons x r =>
        simp only [col0, valueOf, List.getD_cons_zero] at e
        subst e
        have hc : (fun r => decide (col0 r = x)) (x :: r) = true := by
          simp [col0, valueOf]
        rw [List.filter_cons_of_pos (p := fun r => decide (col0 r = x)) hc, List.map_cons,
          List.tail_cons]
        cases hb : P (x :: r) with
        | true =>
          rw [List.filter_cons_of_pos (by simp only [hb, Bool.and_true]; exact hc),
            List.filter_cons_of_pos (p := fun r => P (x :: r)) hb, ih]
          rfl
        | false =>
          rw [List.filter_cons_of_neg (by simp [hb]), List.filter_cons_of_neg (by simp [hb]), ih]
    · rw [List.filter_cons_of_neg (by simp [e]), List.filter_cons_of_neg (by simp [e]), ih]

theorem sub_nonull (fs : List Field) (w : Option Int) (rows : List Row)
    (hn : ∀ r ∈ rows, TailOk fs r) : ∀ r ∈ sub w rows, NoNull fs r := by
  intro r hr
  unfold sub at hr
  obtain ⟨q, hq, rfl⟩ := List.mem_map.mp hr
  obtain ⟨x, q', rfl, h⟩ := hn q (List.mem_filter.mp hq).1
  exact h

theorem sub_sorted (fwd : Bool) (f : Field) (gs : List Field) (w : Option Int) (rows : List Row)
    (hs : rows.Pairwise (DirLt fwd (f :: gs))) : (sub w rows).Pairwise (DirLt fwd gs) := by
  unfold sub
  rw [List.pairwise_map]
  refine (hs.filter _).imp_of_mem ?_
  intro r s hr hs h
  have hr := (List.mem_filter.mp hr).2
  have hs := (List.mem_filter.mp hs).2
  simp only [decide_eq_true_eq] at hr hs
  cases r with
  | nil => cases s <;> cases fwd <;> simp [DirLt, RowLt] at h
  | cons x r =>
    cases s with
    | nil => cases fwd <;> simp [DirLt, RowLt] at h
    | cons y s =>
      simp only [col0, valueOf, List.getD_cons_zero] at hr hs
      subst hr hs
      cases fwd
      · rcases (show RowLt (f :: gs) (_ :: s) (_ :: r) from h) with h | h
        · exact absurd h colLt_irrefl
        · exact h.2
      · rcases (show RowLt (f :: gs) (_ :: r) (_ :: s) from h) with h | h
        · exact absurd h colLt_irrefl
        · exact h.2

theorem first_of_filter {p q : Row → Bool} {t : Row} (hqp : ∀ x, q x = true → p x = true)
    (ht : q t = true) : ∀ (M m : List Row), M.filter p = t :: m → ∃ l, M.filter q = t :: l
  | [], _, h => by simp at h
  | x :: M, m, h => by
    cases hp : p x with
    | true =>
      rw [List.filter_cons_of_pos hp, List.cons.injEq] at h
      rw [h.1, List.filter_cons_of_pos ht]
      exact ⟨_, rfl⟩
    | false =>
      rw [List.filter_cons_of_neg (by simp [hp])] at h
      have hq : ¬ q x = true := fun hq => by rw [hqp x hq] at hp; cases hp
      rw [List.filter_cons_of_neg hq]
      exact first_of_filter hqp ht M m h

/-- What an open range of the first column and all that follows return. -/
theorem runs_many (fwd : Bool) (f : Field) (fs : List Field) (P : Row → Bool) (rows : List Row)
    (hn : ∀ r ∈ rows, TailOk fs r) (hnull : ∀ r ∈ rows, col0 r = none → f.nullfirst ≠ fwd)
    (hsub : ∀ w, SkipRuns fwd fs (fun r => P (w :: r)) (sub w rows)
      (fs.map (Skip.start fwd)) ((sub w rows).filter fun r => P (w :: r)))
    (hs : (rows.filter P).Pairwise fun r s => pre fwd f (col0 r) (col0 s) ∨ col0 r = col0 s) :
    ∀ (n : Nat) (k : Skip), k.open = true →
      (∀ w x, inFirst f k (some w) = true → pre fwd f (some w) x → inFirst f k x = true) →
      ((rows.filter P).filter fun r => inFirst f k (col0 r)).length = n →
      SkipRuns fwd (f :: fs) P rows (k :: fs.map (Skip.start fwd))
        ((rows.filter P).filter fun r => inFirst f k (col0 r)) := by
  intro n
  induction n using Nat.strongRecOn with
  | _ n IH =>
    intro k hk hup hlen
    have hl := rangeRows_open fwd f fs k P rows hn
    have hnM : ∀ r ∈ rows.filter P, TailOk fs r ∧ (col0 r = none → f.nullfirst ≠ fwd) :=
      fun r h => ⟨hn r (List.mem_filter.mp h).1, hnull r (List.mem_filter.mp h).1⟩
    have hat := fun w => filter_at w P rows fun r h e => by
      obtain ⟨_, _, e', _⟩ := hn r h
      rw [e] at e'
      cases e'
    have hin : ∀ r, r ∈ rows → P r = true → r ∈ rows.filter P :=
      fun r h h' => List.mem_filter.mpr ⟨h, h'⟩
    have hla := fun w => rangeRows_open fwd f fs (.at w) P rows hn
    generalize hM : rows.filter P = M at hs hlen hl hnM hat hla hin
    generalize hm : (M.filter fun r => inFirst f k (col0 r)) = m at hlen hl
    have hany : (k :: fs.map (Skip.start fwd)).any Skip.open = true := by simp [hk]
    cases m with
    | nil =>
      have hsr : scanRange (f :: fs) (k :: fs.map (Skip.start fwd)) P rows =
          ([], k :: fs.map (Skip.start fwd)) := by
        simp only [scanRange, hany, hl, if_true]
      have e : skipAdvance fwd (f :: fs) (k :: fs.map (Skip.start fwd)) =
          (Skip.start fwd f :: fs.map (Skip.start fwd), false) := by
        simp only [skipAdvance, advance_starts]
        cases k <;> simp_all [Skip.open]
      have := SkipRuns.stop (fwd := fwd) (fs := f :: fs) (P := P) (rows := rows)
        (ks := k :: fs.map (Skip.start fwd)) (by rw [hsr]; exact e)
      rw [hsr] at this
      exact this
    | cons t m' =>
      have ht : t ∈ M ∧ inFirst f k (col0 t) = true := by
        have : t ∈ M.filter fun r => inFirst f k (col0 r) := by rw [hm]; simp
        simpa using this
      obtain ⟨⟨x, t', rfl, _⟩, hx⟩ := hnM t ht.1
      cases x with
      | none =>
      -- only NULL is left
      have hx := hx rfl
      rw [show col0 (none :: t') = none from rfl] at ht
      have hps : ((none :: t') :: m').Pairwise fun r s =>
          pre fwd f (col0 r) (col0 s) ∨ col0 r = col0 s := by
        rw [← hm]; exact hs.filter _
      have hall : ∀ r ∈ M, inFirst f k (col0 r) = true → col0 r = none := by
        intro r hr hr'
        have hmem : r ∈ (none :: t') :: m' := by rw [← hm]; exact List.mem_filter.mpr ⟨hr, hr'⟩
        rcases List.mem_cons.mp hmem with e | e
        · rw [e]; rfl
        · rcases (List.pairwise_cons.mp hps).1 r e with h | h
          · rw [show col0 (none :: t') = none from rfl] at h
            exfalso
            cases hc : col0 r with
            | none => rw [hc] at h; exact pre_asymm h h
            | some v =>
              rw [hc] at h
              cases fwd <;> cases hf : f.nullfirst <;> simp_all [pre, ColLt]
          · rw [← h]; rfl
      have := runs_null hn hk ht.2 (fun r hr hp hi => hall r (hin r hr hp) hi) (hsub none)
      rw [← hat none] at this
      rw [← hm]
      rw [show (M.filter fun r => inFirst f k (col0 r)) =
          M.filter fun r => decide (col0 r = none) from by
        refine List.filter_congr fun r hr => ?_
        by_cases e : col0 r = none
        · rw [e, ht.2]; simp
        · have : inFirst f k (col0 r) = false := by
            apply Bool.eq_false_iff.mpr
            intro h
            exact e (hall r hr h)
          rw [this]; simp [e]]
      exact this
      | some w =>
      have ht0 : col0 (some w :: t') = some w := rfl
      rw [ht0] at ht
      have hps : ((some w :: t') :: m').Pairwise fun r s =>
          pre fwd f (col0 r) (col0 s) ∨ col0 r = col0 s := by
        rw [← hm]; exact hs.filter _
      have hge : ∀ x ∈ (some w :: t') :: m', col0 x = some w ∨ pre fwd f (some w) (col0 x) := by
        intro x hx
        rcases List.mem_cons.mp hx with e | e
        · subst e; exact Or.inl ht0
        · rcases (List.pairwise_cons.mp hps).1 x e with h | h
          · right; rw [ht0] at h; exact h
          · left; rw [ht0] at h; exact h.symm
      -- rows with the value `w`
      have e1 : (M.filter fun r => decide (col0 r = some w)) =
          ((some w :: t') :: m').filter fun r => decide (col0 r = some w) := by
        rw [← hm, List.filter_filter]
        refine List.filter_congr fun x _ => ?_
        by_cases hx : col0 x = some w
        · rw [hx, ht.2]; simp
        · simp [hx]
      -- rows behind it
      have e2 : (M.filter fun r => inFirst f (trans fwd w) (col0 r)) =
          ((some w :: t') :: m').filter fun r => !decide (col0 r = some w) := by
        have h3 : (M.filter fun r => inFirst f (trans fwd w) (col0 r)) =
            ((some w :: t') :: m').filter fun r => inFirst f (trans fwd w) (col0 r) := by
          rw [← hm, List.filter_filter]
          refine List.filter_congr fun x _ => ?_
          rw [inFirst_trans]
          cases hb : behind fwd f w (col0 x) with
          | false => simp
          | true => simp [hup w (col0 x) ht.2 ((behind_iff _ _ _ _).mp hb)]
        rw [h3]
        refine List.filter_congr fun x hx => ?_
        rw [inFirst_trans]
        rcases hge x hx with h | h
        · have : behind fwd f w (col0 x) = false := by
            apply Bool.eq_false_iff.mpr
            intro hb
            rw [behind_iff, h] at hb
            exact pre_asymm hb hb
          rw [this]; simp [h]
        · have hb := (behind_iff fwd f w (col0 x)).mpr h
          have : ¬ col0 x = some w := by
            intro e
            rw [e] at h
            exact pre_asymm h h
          rw [hb]; simp [this]
      have esplit := split_sorted (p := fun r => decide (col0 r = some w))
        (Q := fun r s => (col0 s = some w ∨ pre fwd f (some w) (col0 s)) ∧
          (col0 r = some w ∨ pre fwd f (some w) (col0 r)) ∧
          (pre fwd f (col0 r) (col0 s) ∨ col0 r = col0 s))
        (by
          rintro x y ⟨_, hx, hxy⟩ hpx
          simp only [decide_eq_false_iff_not] at hpx ⊢
          intro ey
          rcases hx with hx | hx
          · exact hpx hx
          · rcases hxy with h | h
            · rw [ey] at h; exact pre_asymm h hx
            · exact hpx (h.trans ey))
        ((some w :: t') :: m') (hps.imp_of_mem fun hx hy h => ⟨hge _ hy, hge _ hx, h⟩)
      have hlt : (M.filter fun r => inFirst f (trans fwd w) (col0 r)).length < n := by
        rw [e2, ← hlen, List.filter_cons_of_neg (by simp [ht0])]
        exact Nat.lt_of_le_of_lt (List.length_filter_le _ _) (by simp)
      have ih := IH _ hlt (trans fwd w) (by cases fwd <;> rfl)
        (by
          intro w' x h1 h2
          rw [inFirst_trans, behind_iff] at h1 ⊢
          exact pre_trans h1 h2)
        (by rw [hM])
      rw [hM] at ih
      have hlift := runs_lift hn ih (hsub (some w)) (by simp)
      rw [← hat (some w), e1, e2, ← esplit] at hlift
      obtain ⟨l', hl'⟩ := first_of_filter (p := fun r => inFirst f k (col0 r))
        (q := fun r => decide (col0 r = some w)) (t := some w :: t')
        (by intro x hx; simp only [decide_eq_true_eq] at hx; rw [hx]; exact ht.2)
        (by simp [ht0]) M m' hm
      exact runs_congr (scanRange_probe fwd f fs k hk P rows w t' m' l' hl
        ((hla w).trans hl')) hlift

theorem runs_step (fwd : Bool) (f : Field) (fs gs : List Field) (P : Row → Bool)
    (rows : List Row) (hn : ∀ r ∈ rows, TailOk fs r)
    (hnull : ∀ r ∈ rows, col0 r = none → f.nullfirst ≠ fwd)
    (hs : rows.Pairwise (DirLt fwd (f :: (fs ++ gs))))
    (hsub : ∀ w, SkipRuns fwd fs (fun r => P (w :: r)) (sub w rows)
      (fs.map (Skip.start fwd)) ((sub w rows).filter fun r => P (w :: r))) :
    SkipRuns fwd (f :: fs) P rows ((f :: fs).map (Skip.start fwd)) (rows.filter P) := by
  have hs' : (rows.filter P).Pairwise
      fun r s => pre fwd f (col0 r) (col0 s) ∨ col0 r = col0 s := by
    refine (hs.filter P).imp ?_
    intro r s h
    cases fwd
    · rcases rowLt_col0 (show RowLt (f :: (fs ++ gs)) s r from h) with h | h
      · exact Or.inl h
      · exact Or.inr h.symm
    · exact rowLt_col0 (show RowLt (f :: (fs ++ gs)) r s from h)
  have h := runs_many fwd f fs P rows hn hnull hsub hs' _ (Skip.start fwd f) (start_open fwd f)
    (fun _ x _ _ => start_all fwd f x) rfl
  rw [show ((rows.filter P).filter fun r => inFirst f (Skip.start fwd f) (col0 r)) =
      rows.filter P from
    List.filter_eq_self.mpr fun r _ => start_all fwd f (col0 r)] at h
  exact h

theorem runs_all (fwd : Bool) : ∀ (fs gs : List Field) (P : Row → Bool) (rows : List Row),
    (∀ r ∈ rows, NoNull fs r) → rows.Pairwise (DirLt fwd (fs ++ gs)) →
      SkipRuns fwd fs P rows (fs.map (Skip.start fwd)) (rows.filter P)
  | [], gs, P, rows, _, _ => by
    have hf : rangeRows [] [] P rows = rows.filter P := by
      rw [rangeRows]
      exact List.filter_congr fun r _ => by simp [inRange]
    have hsr : scanRange [] [] P rows = (rows.filter P, []) := by
      simp [scanRange, hf]
    have := SkipRuns.stop (fwd := fwd) (fs := []) (P := P) (rows := rows) (ks := [])
      (ks' := []) (by rw [hsr]; rfl)
    rw [hsr] at this
    exact this
  | f :: fs, gs, P, rows, hn, hs => by
    have ht : ∀ r ∈ rows, TailOk fs r := fun r hr => (hn r hr).tailOk
    refine runs_step fwd f fs gs P rows ht ?_ hs fun w =>
      runs_all fwd fs gs (fun r => P (w :: r)) (sub w rows) (sub_nonull fs w rows ht)
        (sub_sorted fwd f (fs ++ gs) w rows hs)
    intro r hr h
    have := hn r hr
    cases r with
    | nil => simp [NoNull] at this
    | cons x r =>
      cases x with
      | none => simp [NoNull] at this
      | some v => simp [col0, valueOf] at h

theorem skip_many (fwd : Bool) (f : Field) (fs gs : List Field) (P : Row → Bool)
    (rows out : List Row) (hrows : rows.Pairwise (RowLt (f :: (fs ++ gs))))
    (hn : ∀ r ∈ rows, TailOk fs r) (hnull : ∀ r ∈ rows, col0 r = none → f.nullfirst ≠ fwd) :
    SkipGives fwd (f :: fs) P rows out ↔
      out = (if fwd then rows else rows.reverse).filter P := by
  have hD := dir_pairwise fwd (f :: (fs ++ gs)) rows hrows
  have ht : ∀ r ∈ (if fwd then rows else rows.reverse), TailOk fs r :=
    fun r h => hn r ((mem_dir fwd rows r).mp h)
  have h := runs_step fwd f fs gs P (if fwd then rows else rows.reverse) ht
    (fun r h => hnull r ((mem_dir fwd rows r).mp h)) hD fun w =>
      runs_all fwd fs gs (fun r => P (w :: r)) _ (sub_nonull fs w _ ht)
        (sub_sorted fwd f (fs ++ gs) w _ hD)
  constructor
  · intro h'
    exact skipRuns_unique h' h
  · intro e
    rw [e]
    exact h

end Verif.ArrayScan
