/-
A row as it is seen from the page of another key: page images may be wider than the
live page they are reached from, and a scan reads all rows of the image.
-/
import Verif.Visible.Pages

namespace Verif.Visible

/-- Is a key below a high key. -/
def hkCov (hk : Option Nat) (j : Nat) : Bool :=
  match hk with
  | none => true
  | some h => decide (j < h)

theorem covers_hkCov (p : Leaf) (j : Nat) : p.covers j = hkCov p.hikey j := by
  unfold Leaf.covers hkCov; cases p.hikey <;> rfl

theorem hkCov_mono {hk : Option Nat} {b j : Nat} (h : b ≤ j) (hc : hkCov hk j = true) :
    hkCov hk b = true := by
  unfold hkCov at hc ⊢
  cases hk with
  | none => rfl
  | some x => simp at hc ⊢; omega

/-- The row of a key on a page with the given high key, if the page reaches that far. -/
def cell (hk : Option Nat) (its : Items) (j : Nat) : Option Chain :=
  if hkCov hk j then some (get its j) else none

/-- What an undo record does to the row: nothing, the row falls out of the image, or
the image is another page. -/
inductive Act where
  | keep
  | lose
  | set (A : Option Chain)

/-- See `Act`. -/
def Act.on (A : Option Chain) : Act → Option Chain
  | .keep => A
  | .lose => none
  | .set B => B

/-- The images of a page as far as one row is concerned. -/
abbrev WH := List (Nat × Act)

/-- The row `j` in the images read with key `b`. -/
def wh : Hist → Nat → Nat → WH
  | .nil, _, _ => []
  | .full csn hk its older, b, j => (csn, .set (cell hk its j)) :: wh older b j
  | .splitDiff _ csn older, b, j => (csn, .keep) :: wh older b j
  | .merge lcsn lhk lits lolder rcsn rhk rits rolder, b, j =>
    if lhk ≤ b then (rcsn, .set (cell rhk rits j)) :: wh rolder b j
    else (lcsn, .set (cell (some lhk) lits j)) :: wh lolder b j
  | .mergeDiff m lcsn lolder rcsn rolder, b, j =>
    if m ≤ b then (rcsn, .keep) :: wh rolder b j
    else (lcsn, if j < m then .keep else .lose) :: wh lolder b j

/-- The row on the image a snapshot reads. -/
def wpick (c : Nat) : Option Chain → WH → Option Chain
  | A, [] => A
  | A, (l, a) :: t => if c ≤ l then wpick c (a.on A) t else a.on A

/-- High keys and rows of images fit together: every image has its rows in order and
below its high key, and the boundary of a differential merge is not right of the image
it is cut from. -/
def HSh (hi : Option Nat) : Hist → Prop
  | .nil => True
  | .full _ hk its older => Srt its ∧ (∀ r ∈ its, hkCov hk r.1 = true) ∧ HSh hk older
  | .splitDiff _ _ older => HSh hi older
  | .merge _ lhk lits lolder _ rhk rits rolder =>
    Srt lits ∧ (∀ r ∈ lits, r.1 < lhk) ∧ HSh (some lhk) lolder ∧
    Srt rits ∧ (∀ r ∈ rits, hkCov rhk r.1 = true) ∧ HSh rhk rolder
  | .mergeDiff m _ lolder _ rolder =>
    (∀ j, j < m → hkCov hi j = true) ∧ HSh (some m) lolder ∧ HSh hi rolder

/-- The images read with key `k` contain the place of `k`. -/
def Cov (k : Nat) : Hist → Prop
  | .nil => True
  | .full _ hk _ older => hkCov hk k = true ∧ Cov k older
  | .splitDiff _ _ older => Cov k older
  | .merge _ lhk _ lolder _ rhk _ rolder =>
    if lhk ≤ k then hkCov rhk k = true ∧ Cov k rolder else Cov k lolder
  | .mergeDiff m _ lolder _ rolder => if m ≤ k then Cov k rolder else Cov k lolder

/-- The rows of the image read with key `b` are those of the records. -/
theorem readUndo_cell (c b j : Nat) (hbj : b ≤ j) : ∀ (h : Hist) (im : Img), HSh im.hikey h →
    hkCov (readUndo c b h im).hikey j = true →
    wpick c (cell im.hikey im.items j) (wh h b j) = some (get (readUndo c b h im).items j) := by
  intro h
  induction h with
  | nil =>
    intro im _ hc
    simp only [readUndo] at hc
    simp only [wh, wpick, readUndo, cell, hc, if_true]
  | full csn hk its older ih =>
    intro im hs hc
    simp only [readUndo, wh, wpick, Act.on] at hc ⊢
    by_cases h : c ≤ csn
    · simp only [if_pos h] at hc ⊢
      exact ih _ hs.2.2 hc
    · simp only [if_neg h] at hc ⊢
      simp only [cell, hc, if_true]
  | splitDiff m csn older ih =>
    intro im hs hc
    simp only [readUndo, wh, wpick, Act.on] at hc ⊢
    by_cases h : c ≤ csn
    · simp only [if_pos h] at hc ⊢
      exact ih { im with csn := csn } hs hc
    · simp only [if_neg h] at hc ⊢
      simp only [cell, hc, if_true]
  | merge lcsn lhk lits lolder rcsn rhk rits rolder ihl ihr =>
    intro im hs hc
    simp only [readUndo, wh] at hc ⊢
    by_cases hb : lhk ≤ b
    · simp only [if_pos hb, wpick, Act.on] at hc ⊢
      by_cases h : c ≤ rcsn
      · simp only [if_pos h] at hc ⊢
        exact ihr _ hs.2.2.2.2.2 hc
      · simp only [if_neg h] at hc ⊢
        simp only [cell, hc, if_true]
    · simp only [if_neg hb, wpick, Act.on] at hc ⊢
      by_cases h : c ≤ lcsn
      · simp only [if_pos h] at hc ⊢
        exact ihl _ hs.2.2.1 hc
      · simp only [if_neg h] at hc ⊢
        simp only [cell, hc, if_true]
  | mergeDiff m lcsn lolder rcsn rolder ihl ihr =>
    intro im hs hc
    simp only [readUndo, wh] at hc ⊢
    by_cases hb : m ≤ b
    · simp only [if_pos hb, wpick, Act.on] at hc ⊢
      have hca : cell im.hikey (above m im.items) j = cell im.hikey im.items j := by
        unfold cell; rw [get_above (by omega)]
      by_cases h : c ≤ rcsn
      · simp only [if_pos h] at hc ⊢
        rw [← hca]
        exact ihr { hikey := im.hikey, csn := rcsn, items := above m im.items } hs.2.2 hc
      · simp only [if_neg h] at hc ⊢
        rw [← hca]
        simp only [cell, hc, if_true]
    · simp only [if_neg hb, wpick] at hc ⊢
      have hca : (if j < m then Act.keep else Act.lose).on (cell im.hikey im.items j) =
          cell (some m) (below m im.items) j := by
        unfold cell
        by_cases hj : j < m
        · rw [if_pos hj]
          simp only [Act.on]
          rw [if_pos (hs.1 j hj), if_pos (show hkCov (some m) j = true by simp [hkCov, hj]), get_below hj]
        · rw [if_neg hj]
          simp only [Act.on]
          rw [if_neg (show ¬ hkCov (some m) j = true by simp [hkCov, hj])]
      rw [hca]
      by_cases h : c ≤ lcsn
      · simp only [if_pos h] at hc ⊢
        exact ihl _ hs.2.1 hc
      · simp only [if_neg h] at hc ⊢
        simp only [cell, hc, if_true]

/-- The image read with key `k` contains the place of `k`. -/
theorem readUndo_cov (c k : Nat) : ∀ (h : Hist) (im : Img), Cov k h → hkCov im.hikey k = true →
    hkCov (readUndo c k h im).hikey k = true := by
  intro h
  induction h with
  | nil => intro im _ hc; exact hc
  | full csn hk its older ih =>
    intro im hs hc
    simp only [readUndo]
    split
    · exact ih _ hs.2 hs.1
    · exact hs.1
  | splitDiff m csn older ih =>
    intro im hs hc
    simp only [readUndo]
    split
    · exact ih { im with csn := csn } hs hc
    · exact hc
  | merge lcsn lhk lits lolder rcsn rhk rits rolder ihl ihr =>
    intro im hs hc
    unfold Cov at hs
    simp only [readUndo]
    by_cases hb : lhk ≤ k
    · simp only [if_pos hb] at hs ⊢
      split
      · exact ihr _ hs.2 hs.1
      · exact hs.1
    · simp only [if_neg hb] at hs ⊢
      have : hkCov (some lhk) k = true := by simp [hkCov]; omega
      split
      · exact ihl _ hs this
      · exact this
  | mergeDiff m lcsn lolder rcsn rolder ihl ihr =>
    intro im hs hc
    unfold Cov at hs
    simp only [readUndo]
    by_cases hb : m ≤ k
    · simp only [if_pos hb] at hs ⊢
      split
      · exact ihr { hikey := im.hikey, csn := rcsn, items := above m im.items } hs hc
      · exact hc
    · simp only [if_neg hb] at hs ⊢
      have : hkCov (some m) k = true := by simp [hkCov]; omega
      split
      · exact ihl _ hs this
      · exact this

/-- Rows in order and below the high key. -/
def Img.Neat (im : Img) : Prop := Srt im.items ∧ ∀ r ∈ im.items, hkCov im.hikey r.1 = true

theorem readUndo_neat (c k : Nat) : ∀ (h : Hist) (im : Img), HSh im.hikey h → im.Neat →
    (readUndo c k h im).Neat := by
  intro h
  induction h with
  | nil => intro im _ hn; exact hn
  | full csn hk its older ih =>
    intro im hs hn
    simp only [readUndo]
    split
    · exact ih _ hs.2.2 ⟨hs.1, hs.2.1⟩
    · exact ⟨hs.1, hs.2.1⟩
  | splitDiff m csn older ih =>
    intro im hs hn
    simp only [readUndo]
    split
    · exact ih { im with csn := csn } hs hn
    · exact hn
  | merge lcsn lhk lits lolder rcsn rhk rits rolder ihl ihr =>
    intro im hs hn
    obtain ⟨h1, h2, h3, h4, h5, h6⟩ := hs
    have h2' : ∀ r ∈ lits, hkCov (some lhk) r.1 = true := by
      intro r hr; simpa [hkCov] using h2 r hr
    simp only [readUndo]
    split <;> split
    · exact ihr _ h6 ⟨h4, h5⟩
    · exact ⟨h4, h5⟩
    · exact ihl _ h3 ⟨h1, h2'⟩
    · exact ⟨h1, h2'⟩
  | mergeDiff m lcsn lolder rcsn rolder ihl ihr =>
    intro im hs hn
    have ha : Img.Neat { hikey := im.hikey, csn := rcsn, items := above m im.items } :=
      ⟨List.Pairwise.filter _ hn.1, fun r hr => hn.2 r (List.mem_filter.1 hr).1⟩
    have hb : Img.Neat { hikey := some m, csn := lcsn, items := below m im.items } :=
      ⟨List.Pairwise.filter _ hn.1, fun r hr => by simpa [hkCov] using (List.mem_filter.1 hr).2⟩
    simp only [readUndo]
    split <;> split
    · exact ihr _ hs.2.2 ha
    · exact ha
    · exact ihl _ hs.2.1 hb
    · exact hb

/-- The live page and all images, as far as they contain the row. -/
def WLevs (st : Nat → Status) (next oldest : Nat) (H : List Ver) (dead : Ver → Bool) :
    Bool → Nat → Nat → Option Chain → WH → Prop
  | sy, pc, low, A, [] => (∀ a, A = some a → Lev st oldest H dead sy pc low a) ∧ low = 0
  | sy, pc, low, A, (l, o) :: t =>
    (∀ a, A = some a → Lev st oldest H dead sy pc low a) ∧ low < next ∧
    match o with
    | .keep => WLevs st next oldest H dead sy low l A t
    | .lose => WLevs st next oldest H dead sy low l none t
    | .set A' => WLevs st next oldest H dead false low l A' t

theorem WLevs.head {st : Nat → Status} {next oldest : Nat} {H : List Ver} {dead : Ver → Bool}
    {sy : Bool} {pc low : Nat} {A : Option Chain} {t : WH} (L : WLevs st next oldest H dead sy pc low A t) :
    ∀ a, A = some a → Lev st oldest H dead sy pc low a := by
  cases t with
  | nil => exact L.1
  | cons a t => obtain ⟨l, o⟩ := a; exact L.1

/-- A change of everything at once; `P` holds for the chain on the live page. -/
theorem WLevs.map {st st' : Nat → Status} {next next' oldest oldest' : Nat} {H H' : List Ver}
    {dead dead' : Ver → Bool} {g : Chain → Chain} {P : Chain → Prop} (hn : next ≤ next')
    (f : ∀ pc low A, pc ≤ next → Lev st oldest H dead false pc low A →
      Lev st' oldest' H' dead' false pc low A)
    (f' : ∀ pc low A, P A → pc ≤ next → Lev st oldest H dead true pc low A →
      Lev st' oldest' H' dead' true pc low (g A)) :
    ∀ (t : WH) (sy : Bool) (pc low : Nat) (A : Option Chain), pc ≤ next →
      (sy = true → ∀ a, A = some a → P a) →
      WLevs st next oldest H dead sy pc low A t →
      WLevs st' next' oldest' H' dead' sy pc low (if sy then A.map g else A) t := by
  have hd : ∀ (sy : Bool) (pc low : Nat) (A : Option Chain), pc ≤ next →
      (sy = true → ∀ a, A = some a → P a) →
      (∀ a, A = some a → Lev st oldest H dead sy pc low a) →
      ∀ a, (if sy then A.map g else A) = some a → Lev st' oldest' H' dead' sy pc low a := by
    intro sy pc low A hp hP h a ha
    cases sy with
    | false => exact f _ _ _ hp (h a (by simpa using ha))
    | true =>
      cases A with
      | none => simp at ha
      | some A =>
        simp only [if_true, Option.map_some, Option.some.injEq] at ha
        subst ha
        exact f' _ _ _ (hP rfl A rfl) hp (h A rfl)
  intro t
  induction t with
  | nil => intro sy pc low A hp hP h; exact ⟨hd sy pc low A hp hP h.1, h.2⟩
  | cons x t ih =>
    intro sy pc low A hp hP h
    obtain ⟨l, o⟩ := x
    obtain ⟨h1, h2, h3⟩ := h
    refine ⟨hd sy pc low A hp hP h1, Nat.lt_of_lt_of_le h2 hn, ?_⟩
    cases o with
    | keep => exact ih sy low l A (Nat.le_of_lt h2) hP h3
    | lose =>
      have := ih sy low l none (Nat.le_of_lt h2) (by simp) h3
      simpa using this
    | set B =>
      have := ih false low l B (Nat.le_of_lt h2) (by simp) h3
      simpa using this

/-- Forget the row. -/
theorem WLevs.forget {st : Nat → Status} {next oldest : Nat} {H : List Ver} {dead : Ver → Bool} :
    ∀ {t : WH} {sy : Bool} {pc pc' low : Nat} {A : Option Chain}, WLevs st next oldest H dead sy pc low A t →
      WLevs st next oldest H dead sy pc' low none t
  | [], sy, pc, pc', low, A, h => ⟨by simp, h.2⟩
  | (l, o) :: t, sy, pc, pc', low, A, h => by
    refine ⟨by simp, h.2.1, ?_⟩
    cases o with
    | keep => exact WLevs.forget h.2.2
    | lose => exact WLevs.forget h.2.2
    | set B => exact h.2.2

theorem Lev.repc {st : Nat → Status} {oldest : Nat} {H : List Ver} {dead : Ver → Bool}
    {pc pc' low : Nat} {A : Chain} (sy : Bool) (L : Lev st oldest H dead true pc low A) :
    Lev st oldest H dead sy pc' low A := by
  obtain ⟨new, old, hH, hnew, _, ho⟩ := L.dec
  have hn := hnew rfl; subst hn
  exact ⟨⟨[], old, hH, fun _ => rfl, by simp, ho⟩,
    fun e he h1 h2 => by have := (L.deads e he h1 h2).1; simp at this, L.locks⟩

theorem WLevs.repc {st : Nat → Status} {next oldest : Nat} {H : List Ver} {dead : Ver → Bool} (sy : Bool) :
    ∀ {t : WH} {pc pc' low : Nat} {A : Option Chain}, WLevs st next oldest H dead true pc low A t →
      WLevs st next oldest H dead sy pc' low A t
  | [], pc, pc', low, A, h => ⟨fun a ha => (h.1 a ha).repc sy, h.2⟩
  | (l, o) :: t, pc, pc', low, A, h => by
    refine ⟨fun a ha => (h.1 a ha).repc sy, h.2.1, ?_⟩
    cases o with
    | keep => exact WLevs.repc sy h.2.2
    | lose => exact WLevs.repc sy h.2.2
    | set B => exact h.2.2

/-- What an image keeps for a snapshot. -/
theorem WLevs.read {st : Nat → Status} {next oldest : Nat} {H : List Ver} {dead : Ver → Bool}
    {c : Nat} (hc : 0 < c) :
    ∀ (t : WH) (sy : Bool) (pc low : Nat) (A : Option Chain),
      WLevs st next oldest H dead sy pc low A t → c ≤ low → ∀ a, wpick c A t = some a →
      ∃ sy' pc' low', c ≤ pc' ∧ pc' < next ∧ low' < c ∧ Lev st oldest H dead sy' pc' low' a
  | [], sy, pc, low, A, h, hl => by have := h.2; omega
  | (l, o) :: t, sy, pc, low, A, h, hl => by
    intro a ha
    obtain ⟨h1, h2, h3⟩ := h
    simp only [wpick] at ha
    cases o with
    | keep =>
      simp only [Act.on] at ha
      by_cases hle : c ≤ l
      · rw [if_pos hle] at ha
        exact WLevs.read hc t sy low l A h3 hle a ha
      · rw [if_neg hle] at ha
        exact ⟨sy, low, l, hl, h2, by omega, h3.head a ha⟩
    | lose =>
      simp only [Act.on] at ha
      by_cases hle : c ≤ l
      · rw [if_pos hle] at ha
        exact WLevs.read hc t sy low l none h3 hle a ha
      · rw [if_neg hle] at ha; simp at ha
    | set B =>
      simp only [Act.on] at ha
      by_cases hle : c ≤ l
      · rw [if_pos hle] at ha
        exact WLevs.read hc t false low l B h3 hle a ha
      · rw [if_neg hle] at ha
        exact ⟨false, low, l, hl, h2, by omega, h3.head a ha⟩

/-- What a row looks like from the page of another key. -/
abbrev WView := Nat × Option Chain × WH

/-- See `WView`. -/
def Leaf.wview (p : Leaf) (b j : Nat) : WView := (p.csn, cell p.hikey p.items j, wh p.hist b j)

/-- The row `j` as seen from the page of key `b`. -/
def wview (l : List Leaf) (b j : Nat) : Option WView := (leafOf l b).map (fun p => p.wview b j)

theorem wview_cons (p : Leaf) (t : List Leaf) (b j : Nat) :
    wview (p :: t) b j = if p.covers b then some (p.wview b j) else wview t b j := by
  unfold wview
  rw [leafOf]
  split <;> rfl

theorem leafOf_between {b j : Nat} (h : b ≤ j) : ∀ {l : List Leaf} {p : Leaf}, leafOf l b = some p →
    p.covers j = true → leafOf l j = some p
  | [], p, h1, _ => by simp [leafOf] at h1
  | q :: t, p, h1, h2 => by
    rw [leafOf] at h1 ⊢
    by_cases hb : q.covers b = true
    · rw [if_pos hb] at h1
      simp only [Option.some.injEq] at h1
      subst h1
      rw [if_pos h2]
    · rw [if_neg hb] at h1
      have : ¬ q.covers j = true := by
        intro hj
        rw [covers_hkCov] at hj hb
        exact hb (hkCov_mono h hj)
      rw [if_neg this]
      exact leafOf_between h h1 h2

/-- If the live page of `b` contains the place of `j`, it is the page of `j`. -/
theorem wview_head {l : List Leaf} {b j : Nat} (h : b ≤ j) {v : WView} {a : Chain}
    (hv : wview l b j = some v) (ha : v.2.1 = some a) : ∃ t, view l j = some (v.1, a, t) := by
  unfold wview at hv
  cases hl : leafOf l b with
  | none => rw [hl] at hv; simp at hv
  | some p =>
    rw [hl] at hv
    simp only [Option.map_some, Option.some.injEq] at hv
    subst hv
    simp only [Leaf.wview, cell] at ha
    by_cases hc : hkCov p.hikey j = true
    · rw [if_pos hc] at ha
      simp only [Option.some.injEq] at ha
      refine ⟨kh p.hist j, ?_⟩
      unfold view
      rw [leafOf_between h hl (by rw [covers_hkCov]; exact hc)]
      simp [Leaf.view, Leaf.wview, ha]
    · rw [if_neg hc] at ha; simp at ha

/-- The page of `b` has a view of every row. -/
theorem wview_csn {l : List Leaf} {b j : Nat} {v : WView} (hv : wview l b j = some v) :
    ∃ A t, view l b = some (v.1, A, t) := by
  unfold wview at hv
  unfold view
  cases hl : leafOf l b with
  | none => rw [hl] at hv; simp at hv
  | some p =>
    rw [hl] at hv
    simp only [Option.map_some, Option.some.injEq] at hv
    subst hv
    exact ⟨get p.items b, kh p.hist b, rfl⟩

/-- What a page operation may do to a row seen from another page. -/
inductive WTurn (s : St) : WView → WView → Prop
  | same (v : WView) : WTurn s v v
  | keep (csn : Nat) (A A' : Option Chain) (t : WH) (h : A' = A ∨ A' = none) :
    WTurn s (csn, A, t) (s.next, A', (csn, .keep) :: t)
  | lose (csn : Nat) (A A' : Option Chain) (t : WH) :
    WTurn s (csn, A, t) (s.next, A', (csn, .lose) :: t)
  | set (csn : Nat) (A A' : Option Chain) (t : WH) :
    WTurn s (csn, A, t) (s.next, A', (csn, .set A) :: t)
  | freeze (csn : Nat) (A A' : Option Chain) (t : WH) : WTurn s (csn, A, t) (0, A', [])

theorem WLevs.turn {s : St} {H : List Ver} {dead : Ver → Bool} {v v' : WView}
    (L : WLevs s.st s.next s.oldest H dead true 0 v.1 v.2.1 v.2.2) (hlow : v.1 < s.next)
    (T : WTurn s v v')
    (hh : ∀ a, v'.2.1 = some a → Lev s.st s.oldest H dead true 0 v'.1 a) :
    WLevs s.st (s.next + 1) s.oldest H dead true 0 v'.1 v'.2.1 v'.2.2 := by
  have up : ∀ {t : WH} {sy : Bool} {pc low : Nat} {A : Option Chain}, pc ≤ s.next →
      WLevs s.st s.next s.oldest H dead sy pc low A t →
      WLevs s.st (s.next + 1) s.oldest H dead sy pc low A t := by
    intro t sy pc low A hp h
    have := WLevs.map (g := id) (P := fun _ => True) (Nat.le_succ s.next) (fun pc low A _ L => L)
      (fun pc low A _ _ L => L) t sy pc low A hp (fun _ _ _ => trivial) h
    cases sy with
    | false => simpa using this
    | true => simpa using this
  cases T with
  | same => exact up (Nat.zero_le _) L
  | keep csn A A' t h =>
    refine ⟨hh, Nat.lt_succ_self _, ?_⟩
    rcases h with h | h
    · subst h; exact (up (Nat.zero_le _) L).repc true
    · subst h; exact (up (Nat.zero_le _) L).forget
  | lose csn A A' t =>
    exact ⟨hh, Nat.lt_succ_self _, (up (Nat.zero_le _) L).forget⟩
  | set csn A A' t =>
    exact ⟨hh, Nat.lt_succ_self _, (up (Nat.zero_le _) L).repc false⟩
  | freeze csn A A' t => exact ⟨hh, rfl⟩

/-- A row is replaced. -/
theorem wview_set {k : Nat} {c : Chain} {b j : Nat} (hbj : b ≤ j) : ∀ (l : List Leaf),
    wview (onLeaf k (Leaf.setRow k c) l) b j =
      (wview l b j).map (fun v => if j = k then (v.1, v.2.1.map (fun _ => c), v.2.2) else v)
  | [] => rfl
  | p :: t => by
    have ih := wview_set (k := k) (c := c) hbj t
    unfold onLeaf
    by_cases hk : p.covers k = true
    · rw [if_pos hk, wview_cons, wview_cons]
      have hc : (Leaf.setRow k c p).covers b = p.covers b := rfl
      rw [hc]
      by_cases hb : p.covers b = true
      · rw [if_pos hb, if_pos hb]
        by_cases e : j = k
        · subst e
          rw [covers_hkCov] at hk
          simp [Leaf.wview, Leaf.setRow, cell, hk, get_put_same]
        · simp [Leaf.wview, Leaf.setRow, cell, get_put_other c e, e]
      · rw [if_neg hb, if_neg hb]
        have e : j ≠ k := by
          intro e; subst e
          rw [covers_hkCov] at hk hb
          exact hb (hkCov_mono hbj hk)
        cases wview t b j <;> simp [e]
    · rw [if_neg hk, wview_cons, wview_cons, ih]
      by_cases hb : p.covers b = true
      · rw [if_pos hb, if_pos hb]
        by_cases e : j = k
        · subst e
          rw [covers_hkCov] at hk
          simp [Leaf.wview, cell, hk]
        · simp [e]
      · rw [if_neg hb, if_neg hb]

/-- Changes of a transaction are taken off all pages. -/
theorem wview_rollback {x m b j : Nat} : ∀ {l : List Leaf} {lo : Nat}, Ok lo l →
    wview (l.map (Leaf.rollback x m)) b j =
      (wview l b j).map (fun v => (v.1, v.2.1.map (fun A => A.filter (fun e => !undone x m e)), v.2.2))
  | [], _, h => h.elim
  | p :: t, lo, h => by
    rw [List.map_cons, wview_cons, wview_cons]
    have hc : (Leaf.rollback x m p).covers b = p.covers b := rfl
    rw [hc]
    by_cases hb : p.covers b = true
    · rw [if_pos hb, if_pos hb]
      have hg := get_rollback (x := x) (m := m) (k := j) h.1
      have hk : (Leaf.rollback x m p).hikey = p.hikey := rfl
      have hcs : (Leaf.rollback x m p).csn = p.csn := rfl
      have hh : (Leaf.rollback x m p).hist = p.hist := rfl
      simp only [Leaf.wview, cell, hg, hk, hcs, hh, Option.map_some]
      by_cases hj : hkCov p.hikey j = true
      · simp [hj]
      · simp [hj]
    · rw [if_neg hb, if_neg hb]
      have h3 := h.2.2
      unfold Leaf.covers at hb
      cases hp : p.hikey with
      | none => rw [hp] at hb; simp at hb
      | some d => rw [hp] at h3; exact wview_rollback h3.2

/-- A compaction. -/
theorem wview_compact {s : St} {k fin b j : Nat} : ∀ (l : List Leaf),
    ∀ v', wview (onLeaf k (compactLeaf s fin) l) b j = some v' → ∃ v, wview l b j = some v ∧ WTurn s v v'
  | [] => fun v' hv => by simp [onLeaf, wview, leafOf] at hv
  | p :: t => by
    intro v' hv
    unfold onLeaf at hv
    rw [wview_cons]
    by_cases hb : p.covers b = true
    · rw [if_pos hb]
      refine ⟨_, rfl, ?_⟩
      split at hv
      · rw [wview_cons, if_pos (show (compactLeaf s fin p).covers b = true from hb)] at hv
        simp only [Option.some.injEq] at hv
        subst hv
        simp only [Leaf.wview, compactLeaf, wh]
        exact .set _ _ _ _
      · rw [wview_cons, if_pos hb] at hv
        simp only [Option.some.injEq] at hv
        subst hv
        exact .same _
    · rw [if_neg hb]
      split at hv
      · rw [wview_cons, if_neg (show ¬ (compactLeaf s fin p).covers b = true from hb)] at hv
        exact ⟨v', hv, .same _⟩
      · rw [wview_cons, if_neg hb] at hv
        exact wview_compact t v' hv

/-- The header fields after a split. -/
theorem WTurn.split {s : St} {m fin : Nat} {seq free : Bool} {p : Leaf} (h : Srt p.items) (b j : Nat)
    (A' : Option Chain)
    (hA : A' = (if hkCov p.hikey j then some (get (kept s.st fin s.next p.items) j) else none) ∨ A' = none) :
    WTurn s (p.wview b j) ((splitHist s m fin seq free p).1, A', wh (splitHist s m fin seq free p).2 b j) := by
  unfold splitHist Leaf.wview
  split
  · exact .set _ _ _ _
  · next hd =>
    simp only [Bool.or_eq_true, not_or, Bool.not_eq_true] at hd
    split
    · exact .freeze _ _ _ _
    · refine .keep _ _ _ _ ?_
      rw [get_kept h, anyDrop_get hd.1] at hA
      exact hA

theorem wview_split {s : St} {m fin : Nat} {seq free : Bool} {b j : Nat} (hbj : b ≤ j) :
    ∀ {l : List Leaf} {lo : Nat}, Ok lo l →
    ∀ v', wview (splitAt s m fin seq free lo l) b j = some v' → ∃ v, wview l b j = some v ∧ WTurn s v v'
  | [], _, h => h.elim
  | p :: t, lo, h => by
    intro v' hv
    unfold splitAt at hv
    rw [wview_cons]
    by_cases hm : p.covers m = true
    · rw [if_pos hm] at hv
      by_cases hl : lo < m
      · rw [if_pos hl] at hv
        unfold splitLeaf at hv
        simp only [List.cons_append, List.nil_append] at hv
        rw [wview_cons] at hv
        by_cases hb : b < m
        · rw [if_pos (by simp [Leaf.covers, hb])] at hv
          simp only [Option.some.injEq] at hv
          subst hv
          have hp : p.covers b = true := by
            rw [covers_hkCov] at hm ⊢; exact hkCov_mono (by omega) hm
          rw [if_pos hp]
          refine ⟨_, rfl, ?_⟩
          simp only [Leaf.wview]
          refine WTurn.split h.1 b j _ ?_
          unfold cell
          by_cases hj : j < m
          · left
            rw [covers_hkCov] at hm
            rw [if_pos (by simp [hkCov, hj]), if_pos (hkCov_mono (by omega) hm), get_below hj]
          · right
            rw [if_neg (by simp [hkCov, hj])]
        · rw [if_neg (by simp [Leaf.covers, hb])] at hv
          have hcc : ∀ c i h, Leaf.covers { hikey := p.hikey, csn := c, items := i, hist := h } b =
              p.covers b := fun _ _ _ => rfl
          rw [wview_cons, hcc] at hv
          by_cases hp : p.covers b = true
          · rw [if_pos hp] at hv
            simp only [Option.some.injEq] at hv
            subst hv
            rw [if_pos hp]
            refine ⟨_, rfl, ?_⟩
            simp only [Leaf.wview]
            refine WTurn.split h.1 b j _ (Or.inl ?_)
            unfold cell
            rw [get_above (by omega)]
          · rw [if_neg hp] at hv
            rw [if_neg hp]
            exact ⟨v', hv, .same _⟩
      · rw [if_neg hl, wview_cons] at hv
        exact ⟨v', hv, .same _⟩
    · rw [if_neg hm, wview_cons] at hv
      by_cases hp : p.covers b = true
      · rw [if_pos hp] at hv ⊢
        exact ⟨v', hv, .same _⟩
      · rw [if_neg hp] at hv ⊢
        have h3 := h.2.2
        unfold Leaf.covers at hp
        cases hh : p.hikey with
        | none => rw [hh] at hp; simp at hp
        | some d =>
          rw [hh] at h3 hv
          exact wview_split hbj h3.2 v' hv

/-- The header fields after a merge. -/
theorem WTurn.merge {s : St} {m fin : Nat} {seq free : Bool} {p q : Leaf} (hp : Srt p.items)
    (hq : Srt q.items) (h1 : ∀ r ∈ p.items, r.1 < m) (h2 : ∀ r ∈ q.items, m ≤ r.1)
    (hk : p.hikey = some m) (hqk : ∀ j, j < m → hkCov q.hikey j = true) (b j : Nat) (hbj : b ≤ j) :
    WTurn s ((if b < m then p else q).wview b j)
      ((mergeHist s m fin seq free p q).1,
       cell q.hikey (kept s.st fin s.next (p.items ++ q.items)) j,
       wh (mergeHist s m fin seq free p q).2 b j) := by
  by_cases hb : b < m
  · rw [if_pos hb]
    unfold mergeHist Leaf.wview
    split
    · simp only [wh, if_neg (show ¬ m ≤ b by omega), hk]
      exact .set _ _ _ _
    · next hd =>
      simp only [Bool.or_eq_true, not_or, Bool.not_eq_true] at hd
      split
      · exact .freeze _ _ _ _
      · simp only [wh, if_neg (show ¬ m ≤ b by omega)]
        by_cases hj : j < m
        · rw [if_pos hj]
          refine .keep _ _ _ _ (Or.inl ?_)
          unfold cell
          rw [get_kept (srt_append hp hq h1 h2), get_append_left (fun r hr => by have := h2 r hr; omega),
            anyDrop_get hd.1, hqk j hj, hk]
          simp [hkCov, hj]
        · rw [if_neg hj]
          exact .lose _ _ _ _
  · rw [if_neg hb]
    unfold mergeHist Leaf.wview
    split
    · simp only [wh, if_pos (show m ≤ b by omega)]
      exact .set _ _ _ _
    · next hd =>
      simp only [Bool.or_eq_true, not_or, Bool.not_eq_true] at hd
      split
      · exact .freeze _ _ _ _
      · simp only [wh, if_pos (show m ≤ b by omega)]
        refine .keep _ _ _ _ (Or.inl ?_)
        unfold cell
        rw [get_kept (srt_append hp hq h1 h2), get_append_right (fun r hr => by have := h1 r hr; omega),
          anyDrop_get hd.2]
        simp

theorem wview_merge {s : St} {m fin : Nat} {seq free : Bool} {b j : Nat} (hbj : b ≤ j) :
    ∀ {l : List Leaf} {lo : Nat}, Ok lo l →
    ∀ v', wview (mergeAt s m fin seq free l) b j = some v' → ∃ v, wview l b j = some v ∧ WTurn s v v'
  | [], _, h => h.elim
  | [p], lo, h => fun v' hv => ⟨v', hv, .same _⟩
  | p :: q :: t, lo, h => by
    intro v' hv
    unfold mergeAt at hv
    rw [wview_cons]
    have h3 := h.2.2
    by_cases hm : p.hikey = some m
    · rw [if_pos hm, wview_cons] at hv
      rw [hm] at h3
      obtain ⟨hlo, hq1, hq2, hq3⟩ := h3
      have hp2 : ∀ r ∈ p.items, r.1 < m := by
        intro r hr
        have := (h.2.1 r hr).2
        unfold Leaf.covers at this; rw [hm] at this; simpa using this
      have hqk : ∀ j, j < m → hkCov q.hikey j = true := by
        intro j hj
        unfold hkCov
        cases hh : q.hikey with
        | none => rfl
        | some c => rw [hh] at hq3; simp; omega
      have hT := WTurn.merge (s := s) (fin := fin) (seq := seq) (free := free) h.1 hq1 hp2
        (fun r hr => (hq2 r hr).1) hm hqk b j hbj
      have hcov : (mergeLeaf s m fin seq free p q).covers b = q.covers b := rfl
      rw [hcov] at hv
      by_cases hb : b < m
      · have hpc : p.covers b = true := by simp [Leaf.covers, hm, hb]
        have hqc : q.covers b = true := by rw [covers_hkCov]; exact hqk b hb
        rw [if_pos hqc] at hv
        simp only [Option.some.injEq] at hv
        subst hv
        rw [if_pos hpc]
        refine ⟨_, rfl, ?_⟩
        rw [if_pos hb] at hT
        exact hT
      · have hpc : ¬ p.covers b = true := by simp [Leaf.covers, hm, hb]
        rw [if_neg hpc, wview_cons]
        by_cases hqc : q.covers b = true
        · rw [if_pos hqc] at hv ⊢
          simp only [Option.some.injEq] at hv
          subst hv
          refine ⟨_, rfl, ?_⟩
          rw [if_neg hb] at hT
          exact hT
        · rw [if_neg hqc] at hv ⊢
          exact ⟨v', hv, .same _⟩
    · rw [if_neg hm, wview_cons] at hv
      by_cases hp : p.covers b = true
      · rw [if_pos hp] at hv ⊢
        exact ⟨v', hv, .same _⟩
      · rw [if_neg hp] at hv ⊢
        unfold Leaf.covers at hp
        cases hh : p.hikey with
        | none => rw [hh] at hp; simp at hp
        | some c => rw [hh] at h3; exact wview_merge hbj h3.2 v' hv

end Verif.Visible
