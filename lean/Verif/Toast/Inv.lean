/-
The invariant of a table with large values, and that statements keep it.
-/
import Verif.Toast.Spec
import Verif.Toast.Choose

namespace Verif.Toast

/-- The column's value is `v`, and the chunks are those it needs. -/
def Stored (cfg : Cfg) (t : Tree) (key i : Nat) : Cell → Option Bytes → Prop
  | .null, v => v = none ∧ sel (cfg.cls key) i t = []
  | .inline f, v => v = some (raw cfg f) ∧ sel (cfg.cls key) i t = []
  | .toasted r s, v => ∃ f : Flat, v = some (raw cfg f) ∧ r = (raw cfg f).length ∧
      s = f.image.length ∧ sel (cfg.cls key) i t = allParts cfg key i f.image
  | .pointer, _ => False

theorem Stored.congr {cfg : Cfg} {t t' : Tree} {key i : Nat} {c : Cell} {v : Option Bytes}
    (h : Stored cfg t key i c v) (ht : sel (cfg.cls key) i t' = sel (cfg.cls key) i t) :
    Stored cfg t' key i c v := by
  cases c <;> simp only [Stored, ht] at * <;> exact h

/-- The value of a datum, read in the tree `snap`. -/
def Means (cfg : Cfg) (snap : Tree) (d : Datum) (w : Option Bytes) : Prop :=
  (d = .null ∧ w = none) ∨
    ∃ f, srcValue cfg snap d = some f ∧ rawSize cfg d = (raw cfg f).length ∧
      srcSize d = f.image.length ∧ w = some (raw cfg f)

/-- The value of a column of a slot; values to be left in the row are in memory. -/
def ColOk (cfg : Cfg) (snap : Tree) (c : Col) (w : Option Bytes) : Prop :=
  Means cfg snap c.d w ∧ (c.flag = .on → c.d ≠ .null) ∧ (c.flag ≠ .on → c.d.isPtr = false)

theorem raw_pack {cfg : Cfg} (hg : Good cfg) {b p : Bytes} (h : cfg.pack b = some p) :
    raw cfg ⟨true, p⟩ = b := by
  simp only [raw, if_pos]; exact hg.unpack b p h

theorem colOk_keeps {cfg : Cfg} (hg : Good cfg) (snap : Tree) (ws : List (Option Bytes)) :
    Keeps cfg fun i c => ∃ w, ws[i]? = some w ∧ ColOk cfg snap c w := by
  constructor
  · rintro i c ⟨w, hw, hm, hon, hoff⟩ hc
    refine ⟨w, hw, ?_⟩
    have hnn : c.d ≠ .null := by
      simp [cand1] at hc; exact hc.1.1
    unfold step1
    by_cases h1 : (c.d.isComp || c.mode == .external) = true
    · rw [if_pos h1]; exact ⟨hm, fun _ => hnn, fun h => absurd rfl h⟩
    · rw [if_neg h1]
      obtain ⟨m, d, fl⟩ := c
      cases d with
      | flat f =>
        simp only
        cases hp : cfg.pack f.bytes with
        | some b =>
          refine ⟨?_, by simp, by simp [Datum.isPtr]⟩
          rcases hm with ⟨h, _⟩ | ⟨g, hg1, hg2, hg3, hg4⟩
          · cases h
          · simp [srcValue] at hg1
            subst hg1
            right
            refine ⟨⟨true, b⟩, rfl, rfl, rfl, ?_⟩
            rw [hg4, raw_pack hg hp]
            have : f.comp = false := by
              simp [Datum.isComp] at h1; exact h1.1
            simp [raw, this]
        | none =>
          by_cases hmm : (m == .main) = true
          · simp only [hmm, if_pos]
            exact ⟨hm, by simp, by simp [Datum.isPtr]⟩
          · simp only [if_neg hmm]
            exact ⟨hm, fun _ => hnn, fun h => absurd rfl h⟩
      | null => exact absurd rfl hnn
      | ext p => exact ⟨hm, fun _ => hnn, fun h => absurd rfl h⟩
      | heap f => exact ⟨hm, fun _ => hnn, fun h => absurd rfl h⟩
  · rintro i c ⟨w, hw, hm, hon, hoff⟩ hc
    refine ⟨w, hw, hm, fun _ => ?_, fun h => absurd rfl h⟩
    simp [cand2] at hc; exact hc.1.1

/-- What `tts_orioledb_toast` makes of a slot. -/
theorem toastCols_ok {cfg : Cfg} (hg : Good cfg) {snap : Tree} {cs : List Col}
    {ws : List (Option Bytes)} (hl : cs.length = cfg.modes.length) (hlw : ws.length = cs.length)
    (h : ∀ (k : Nat) c w, cs[k]? = some c → ws[k]? = some w →
      c.flag = .off ∧ Means cfg snap c.d w) :
    fits cfg (toastCols cfg cs) = true ∧ (toastCols cfg cs).length = cfg.modes.length ∧
      ∀ (k : Nat) c w, (toastCols cfg cs)[k]? = some c → ws[k]? = some w → ColOk cfg snap c w := by
  have hf : cfg.base + 12 * cs.length ≤ cfg.maxTuple := by rw [hl]; exact hg.narrow
  have hall : ∀ (k : Nat) c, cs[k]? = some c → ∃ w, ws[k]? = some w := by
    intro k c hk
    have : k < ws.length := by
      rw [hlw]; exact (List.getElem?_eq_some_iff.mp hk).1
    exact ⟨ws[k], List.getElem?_eq_getElem this⟩
  have hk := toastCols_keeps (colOk_keeps hg snap ws) hf (by
    intro k c hk
    obtain ⟨w, hw⟩ := hall k c hk
    obtain ⟨h1, h2⟩ := h k c w hk hw
    refine ⟨w, hw, ?_⟩
    by_cases hp : c.d.isPtr = true
    · rw [if_pos hp]
      exact ⟨h2, fun _ hn => by rw [hn] at hp; simp [Datum.isPtr] at hp, fun h => absurd rfl h⟩
    · rw [if_neg hp]
      exact ⟨h2, fun hx => (by rw [h1] at hx; cases hx), fun _ => by simpa using hp⟩) (by
    rintro k c ⟨w, hw, h1, h2, h3⟩ hfl
    exact ⟨w, hw, h1, by simp, fun _ => h3 (by rw [hfl]; simp)⟩)
  refine ⟨toastCols_fits hg.ptr hf ?_, by rw [hk.2, hl], ?_⟩
  · intro c hc
    obtain ⟨k, hk'⟩ := List.getElem?_of_mem hc
    obtain ⟨w, hw⟩ := hall k c hk'
    exact (h k c w hk' hw).1
  · intro k c w hc hw
    obtain ⟨w', hw', hok⟩ := hk.1 k c hc
    rw [hw] at hw'
    have : w = w' := by simpa using hw'
    exact this ▸ hok

/-- A column left in the row. -/
theorem stored_off {cfg : Cfg} {snap t : Tree} {key i : Nat} {c : Col} {w : Option Bytes}
    (h : ColOk cfg snap c w) (hf : c.flag ≠ .on) (hs : sel (cfg.cls key) i t = []) :
    Stored cfg t key i (cellOf cfg c) w := by
  obtain ⟨hm, _, hoff⟩ := h
  have hp := hoff hf
  unfold cellOf
  rw [if_neg hf]
  obtain ⟨m, d, fl⟩ := c
  cases d with
  | null =>
    rcases hm with ⟨_, h⟩ | ⟨f, h, _⟩
    · exact ⟨h, hs⟩
    · simp [srcValue] at h
  | flat g =>
    rcases hm with ⟨h, _⟩ | ⟨f, h1, _, _, h4⟩
    · cases h
    · simp [srcValue] at h1
      subst h1
      exact ⟨h4, hs⟩
  | ext p => simp [Datum.isPtr] at hp
  | heap g => simp [Datum.isPtr] at hp

/-- A column moved out of the row. -/
theorem on_value {cfg : Cfg} {snap : Tree} {c : Col} {w : Option Bytes}
    (h : ColOk cfg snap c w) (hf : c.flag = .on) :
    ∃ f, srcValue cfg snap c.d = some f ∧ rawSize cfg c.d = (raw cfg f).length ∧
      srcSize c.d = f.image.length ∧ w = some (raw cfg f) ∧
      cellOf cfg c = .toasted (raw cfg f).length f.image.length := by
  obtain ⟨hm, hon, _⟩ := h
  rcases hm with ⟨h, _⟩ | ⟨f, h1, h2, h3, h4⟩
  · exact absurd h (hon hf)
  · refine ⟨f, h1, h2, h3, h4, ?_⟩
    unfold cellOf
    rw [if_pos hf, h2, h3]

theorem insertValues_ok {cfg : Cfg} (hg : Good cfg) {snap : Tree} {key : Nat} :
    ∀ (cs : List Col) (ws : List (Option Bytes)) (i : Nat) (t : Tree), Sorted t →
      ws.length = cs.length →
      (∀ (k : Nat) c w, cs[k]? = some c → ws[k]? = some w → ColOk cfg snap c w) →
      (∀ a, i ≤ a → sel (cfg.cls key) a t = []) →
      ∃ t', insertValues cfg snap key i cs t = .ok t' ∧ Sorted t' ∧
        (∀ (k : Nat) c w, cs[k]? = some c → ws[k]? = some w →
          Stored cfg t' key (i + k) (cellOf cfg c) w) ∧
        (∀ c' a', ¬ (cfg.cls key = c' ∧ i ≤ a' ∧ a' < i + cs.length) →
          sel c' a' t' = sel c' a' t) := by
  intro cs
  induction cs with
  | nil =>
    intro ws i t hs _ _ _
    exact ⟨t, rfl, hs, by simp, fun _ _ _ => rfl⟩
  | cons c cs ih =>
    intro ws i t hs hl hok hemp
    cases ws with
    | nil => simp at hl
    | cons w ws =>
    have hl' : ws.length = cs.length := by simpa using hl
    have hc := hok 0 c w (by simp) (by simp)
    have hok' : ∀ (k : Nat) c w, cs[k]? = some c → ws[k]? = some w → ColOk cfg snap c w :=
      fun k c' w' h1 h2 => hok (k + 1) c' w' (by simpa using h1) (by simpa using h2)
    unfold insertValues
    by_cases hf : c.flag = .on
    · rw [if_pos hf]
      obtain ⟨f, h1, h2, h3, h4, h5⟩ := on_value hc hf
      simp only [h1]
      obtain ⟨t1, ht1, hs1, hsel1, hoth1⟩ := toastInsert_ok (cfg := cfg) (key := key) (a := i)
        (data := f.image) (hg.chunk key) hs (hemp i (Nat.le_refl _))
      simp only [ht1]
      obtain ⟨t2, ht2, hs2, hst2, hoth2⟩ := ih ws (i + 1) t1 hs1 hl' hok' (by
        intro a ha
        rw [hoth1 _ _ (by omega)]
        exact hemp a (by omega))
      refine ⟨t2, ht2, hs2, ?_, ?_⟩
      · intro k c' w' hk hw
        cases k with
        | zero =>
          simp at hk hw
          subst hk; subst hw
          rw [h5]
          refine ⟨f, h4, rfl, rfl, ?_⟩
          rw [Nat.add_zero, hoth2 _ _ (by omega)]
          exact hsel1
        | succ k =>
          have := hst2 k c' w' (by simpa using hk) (by simpa using hw)
          rwa [show i + (k + 1) = i + 1 + k by omega]
      · intro c' a' hne
        simp only [List.length_cons] at hne
        rw [hoth2 c' a' (by omega), hoth1 c' a' (by omega)]
    · rw [if_neg hf]
      obtain ⟨t2, ht2, hs2, hst2, hoth2⟩ := ih ws (i + 1) t hs hl' hok' (by
        intro a ha; exact hemp a (by omega))
      refine ⟨t2, ht2, hs2, ?_, ?_⟩
      · intro k c' w' hk hw
        cases k with
        | zero =>
          simp at hk hw
          subst hk; subst hw
          apply stored_off hc hf
          rw [Nat.add_zero, hoth2 _ _ (by omega)]
          exact hemp i (Nat.le_refl _)
        | succ k =>
          have := hst2 k c' w' (by simpa using hk) (by simpa using hw)
          rwa [show i + (k + 1) = i + 1 + k by omega]
      · intro c' a' hne
        simp only [List.length_cons] at hne
        rw [hoth2 c' a' (by omega)]

theorem removeValues_ok {cfg : Cfg} {key : Nat} :
    ∀ (os : List Cell) (vs : List (Option Bytes)) (i : Nat) (t : Tree), Sorted t →
      vs.length = os.length →
      (∀ (k : Nat) o v, os[k]? = some o → vs[k]? = some v → Stored cfg t key (i + k) o v) →
      ∃ t', removeValues cfg key i os t = .ok t' ∧ Sorted t' ∧
        (∀ a, i ≤ a → a < i + os.length → sel (cfg.cls key) a t' = []) ∧
        (∀ c' a', ¬ (cfg.cls key = c' ∧ i ≤ a' ∧ a' < i + os.length) →
          sel c' a' t' = sel c' a' t) := by
  intro os
  induction os with
  | nil =>
    intro vs i t hs _ _
    exact ⟨t, rfl, hs, fun a h1 h2 => by simp at h2; omega, fun _ _ _ => rfl⟩
  | cons o os ih =>
    intro vs i t hs hl hok
    cases vs with
    | nil => simp at hl
    | cons v vs =>
    have hl' : vs.length = os.length := by simpa using hl
    have ho := hok 0 o v (by simp) (by simp)
    rw [Nat.add_zero] at ho
    have hok' : ∀ (k : Nat) o v, os[k]? = some o → vs[k]? = some v →
        Stored cfg t key (i + 1 + k) o v := by
      intro k o' v' h1 h2
      have := hok (k + 1) o' v' (by simpa using h1) (by simpa using h2)
      rwa [show i + (k + 1) = i + 1 + k by omega] at this
    have hskip : sel (cfg.cls key) i t = [] →
        ∃ t', removeValues cfg key (i + 1) os t = .ok t' ∧ Sorted t' ∧
        (∀ a, i ≤ a → a < i + (o :: os).length → sel (cfg.cls key) a t' = []) ∧
        (∀ c' a', ¬ (cfg.cls key = c' ∧ i ≤ a' ∧ a' < i + (o :: os).length) →
          sel c' a' t' = sel c' a' t) := by
      intro hemp
      obtain ⟨t2, ht2, hs2, he2, hoth2⟩ := ih vs (i + 1) t hs hl' hok'
      refine ⟨t2, ht2, hs2, ?_, ?_⟩
      · intro a h1 h2
        simp only [List.length_cons] at h2
        by_cases ha : a = i
        · subst ha
          rw [hoth2 _ _ (by omega)]; exact hemp
        · exact he2 a (by omega) (by omega)
      · intro c' a' hne
        simp only [List.length_cons] at hne
        rw [hoth2 c' a' (by omega)]
    unfold removeValues
    cases o with
    | null => exact hskip ho.2
    | inline f => exact hskip ho.2
    | pointer => exact False.elim ho
    | toasted r s =>
      obtain ⟨f, h1, h2, h3, h4⟩ := ho
      obtain ⟨t1, ht1, hs1, hsel1, hoth1⟩ := toastDelete_ok (cfg := cfg) (key := key) (a := i) hs
        (by rw [h4]; exact allParts_ne)
      simp only [ht1]
      obtain ⟨t2, ht2, hs2, he2, hoth2⟩ := ih vs (i + 1) t1 hs1 hl' (by
        intro k o' v' hk hv
        exact (hok' k o' v' hk hv).congr (hoth1 _ _ (by omega)))
      refine ⟨t2, ht2, hs2, ?_, ?_⟩
      · intro a h1 h2
        simp only [List.length_cons] at h2
        by_cases ha : a = i
        · subst ha
          rw [hoth2 _ _ (by omega)]; exact hsel1
        · exact he2 a (by omega) (by omega)
      · intro c' a' hne
        simp only [List.length_cons] at hne
        rw [hoth2 c' a' (by omega), hoth1 c' a' (by omega)]

/-- Replacing a value: the old one, if any, is removed, the new one, if any, inserted. -/
theorem replaceValue_ok {cfg : Cfg} (hg : Good cfg) {snap t : Tree} {key i : Nat} {del : Bool}
    (hs : Sorted t) (hd : if del then sel (cfg.cls key) i t ≠ [] else sel (cfg.cls key) i t = [])
    {c : Col} {w : Option Bytes} (hc : ColOk cfg snap c w) :
    ∃ t', replaceValue cfg snap key i del (if c.flag = .on then some c.d else none) t = .ok t' ∧
      Sorted t' ∧ Stored cfg t' key i (cellOf cfg c) w ∧
      ∀ c' a', ¬ (cfg.cls key = c' ∧ i = a') → sel c' a' t' = sel c' a' t := by
  have h1 : ∃ t1, (if del then toastDelete cfg key i t else some t) = some t1 ∧ Sorted t1 ∧
      sel (cfg.cls key) i t1 = [] ∧
      ∀ c' a', ¬ (cfg.cls key = c' ∧ i = a') → sel c' a' t1 = sel c' a' t := by
    cases del with
    | true =>
      simp only [if_pos] at hd ⊢
      exact toastDelete_ok hs hd
    | false =>
      simp at hd ⊢
      exact ⟨hs, hd⟩
  obtain ⟨t1, ht1, hs1, he1, ho1⟩ := h1
  unfold replaceValue
  simp only [ht1]
  by_cases hf : c.flag = .on
  · rw [if_pos hf]
    obtain ⟨f, h1, h2, h3, h4, h5⟩ := on_value hc hf
    simp only [h1]
    obtain ⟨t2, ht2, hs2, hsel2, hoth2⟩ := toastInsert_ok (cfg := cfg) (key := key) (a := i)
      (data := f.image) (hg.chunk key) hs1 he1
    simp only [ht2]
    refine ⟨t2, rfl, hs2, ?_, ?_⟩
    · rw [h5]; exact ⟨f, h4, rfl, rfl, hsel2⟩
    · intro c' a' hne
      rw [hoth2 c' a' hne, ho1 c' a' hne]
  · rw [if_neg hf]
    exact ⟨t1, rfl, hs1, stored_off hc hf he1, ho1⟩

/-- The calmness of one column. -/
def calmCol (cfg : Cfg) (snap : Tree) (key i : Nat) (o : Cell) (c : Col) : Bool :=
  match o with
  | .toasted r s =>
    c.flag != .on || srcSize c.d == s ||
      (match srcValue cfg snap c.d, srcValue cfg snap (.ext ⟨key, i, r, s⟩) with
        | some f, some g => raw cfg f != raw cfg g
        | _, _ => true)
  | _ => true

theorem updateValue_ok {cfg : Cfg} (hg : Good cfg) {snap t : Tree} {key i : Nat} {o : Cell}
    {v w : Option Bytes} {c : Col} (hs : Sorted t) (ho : Stored cfg snap key i o v)
    (hsnap : sel (cfg.cls key) i t = sel (cfg.cls key) i snap) (hc : ColOk cfg snap c w)
    (hcalm : calmCol cfg snap key i o c = true) :
    ∃ t', updateValue cfg snap key i o c t = .ok t' ∧ Sorted t' ∧
      Stored cfg t' key i (cellOf cfg c) w ∧
      ∀ c' a', ¬ (cfg.cls key = c' ∧ i = a') → sel c' a' t' = sel c' a' t := by
  have hnew : sel (cfg.cls key) i snap = [] →
      ∃ t', (if c.flag = .on then replaceValue cfg snap key i false (some c.d) t else .ok t)
          = .ok t' ∧ Sorted t' ∧ Stored cfg t' key i (cellOf cfg c) w ∧
        ∀ c' a', ¬ (cfg.cls key = c' ∧ i = a') → sel c' a' t' = sel c' a' t := by
    intro he
    rw [← hsnap] at he
    by_cases hf : c.flag = .on
    · rw [if_pos hf]
      have := replaceValue_ok hg (del := false) (i := i) (key := key) hs (by simpa using he) hc
      rwa [if_pos hf] at this
    · rw [if_neg hf]
      exact ⟨t, rfl, hs, stored_off hc hf he, fun _ _ _ => rfl⟩
  unfold updateValue
  cases o with
  | null => exact hnew ho.2
  | inline f => exact hnew ho.2
  | pointer => exact False.elim ho
  | toasted r s =>
    obtain ⟨g, h1, h2, h3, h4⟩ := ho
    have hdel : (if true then sel (cfg.cls key) i t ≠ [] else sel (cfg.cls key) i t = []) := by
      simp only [if_pos]
      rw [hsnap, h4]; exact allParts_ne
    have hrep := replaceValue_ok hg (del := true) (i := i) (key := key) hs hdel hc
    have hold : srcValue cfg snap (.ext ⟨key, i, r, s⟩) = some g := by
      simp only [srcValue]
      rw [h3]
      exact detoast_ok (hg.chunk key) h4
    simp only
    by_cases hf : c.flag = .on
    · rw [if_pos hf] at hrep ⊢
      obtain ⟨f, hf1, hf2, hf3, hf4, hf5⟩ := on_value hc hf
      by_cases hptr : c.d = .ext ⟨key, i, r, s⟩
      · rw [if_pos hptr]
        refine ⟨t, rfl, hs, ?_, fun _ _ _ => rfl⟩
        rw [hptr, hold] at hf1
        have : g = f := by simpa using hf1
        subst this
        rw [hf5]
        exact ⟨g, hf4, rfl, rfl, by rw [hsnap]; exact h4⟩
      · rw [if_neg hptr]
        by_cases hr : rawSize cfg c.d = r
        · rw [if_pos hr]
          simp only [hf1, hold]
          by_cases heq : raw cfg f = raw cfg g
          · rw [if_pos heq]
            refine ⟨t, rfl, hs, ?_, fun _ _ _ => rfl⟩
            have hsz : srcSize c.d = s := by
              simp only [calmCol, hf, hf1, hold, heq] at hcalm
              simpa using hcalm
            rw [hf5]
            refine ⟨g, by rw [hf4, heq], by rw [heq], ?_, by rw [hsnap]; exact h4⟩
            rw [← h3, ← hsz, hf3]
          · rw [if_neg heq]; exact hrep
        · rw [if_neg hr]; exact hrep
    · rw [if_neg hf] at hrep ⊢
      exact hrep

theorem calmCols_cons {cfg : Cfg} {snap : Tree} {key i : Nat} {o : Cell} {os : List Cell}
    {c : Col} {cs : List Col} (h : calmCols cfg snap key i (o :: os) (c :: cs) = true) :
    calmCol cfg snap key i o c = true ∧ calmCols cfg snap key (i + 1) os cs = true := by
  unfold calmCols at h
  rw [Bool.and_eq_true] at h
  exact h

theorem updateValues_ok {cfg : Cfg} (hg : Good cfg) {snap : Tree} {key : Nat} :
    ∀ (os : List Cell) (cs : List Col) (vs ws : List (Option Bytes)) (i : Nat) (t : Tree),
      Sorted t → cs.length = os.length → vs.length = os.length → ws.length = os.length →
      (∀ (k : Nat) o v, os[k]? = some o → vs[k]? = some v → Stored cfg snap key (i + k) o v) →
      (∀ (k : Nat) c w, cs[k]? = some c → ws[k]? = some w → ColOk cfg snap c w) →
      (∀ a, i ≤ a → sel (cfg.cls key) a t = sel (cfg.cls key) a snap) →
      calmCols cfg snap key i os cs = true →
      ∃ t', updateValues cfg snap key i os cs t = .ok t' ∧ Sorted t' ∧
        (∀ (k : Nat) c w, cs[k]? = some c → ws[k]? = some w →
          Stored cfg t' key (i + k) (cellOf cfg c) w) ∧
        (∀ c' a', ¬ (cfg.cls key = c' ∧ i ≤ a' ∧ a' < i + os.length) →
          sel c' a' t' = sel c' a' t) := by
  intro os
  induction os with
  | nil =>
    intro cs vs ws i t hs hlc _ _ _ _ _ _
    have : cs = [] := List.length_eq_zero_iff.mp (by simpa using hlc)
    subst this
    exact ⟨t, rfl, hs, by simp, fun _ _ _ => rfl⟩
  | cons o os ih =>
    intro cs vs ws i t hs hlc hlv hlw hold hnew hsnap hcalm
    cases cs with
    | nil => simp at hlc
    | cons c cs =>
    cases vs with
    | nil => simp at hlv
    | cons v vs =>
    cases ws with
    | nil => simp at hlw
    | cons w ws =>
    have ho := hold 0 o v (by simp) (by simp)
    rw [Nat.add_zero] at ho
    have hc := hnew 0 c w (by simp) (by simp)
    have hcm := calmCols_cons hcalm
    obtain ⟨t1, ht1, hs1, hst1, hoth1⟩ :=
      updateValue_ok hg hs ho (hsnap i (Nat.le_refl _)) hc hcm.1
    unfold updateValues
    simp only [ht1]
    obtain ⟨t2, ht2, hs2, hst2, hoth2⟩ := ih cs vs ws (i + 1) t1 hs1 (by simpa using hlc)
      (by simpa using hlv) (by simpa using hlw) (by
        intro k o' v' h1 h2
        have := hold (k + 1) o' v' (by simpa using h1) (by simpa using h2)
        rwa [show i + (k + 1) = i + 1 + k by omega] at this)
      (fun k c' w' h1 h2 => hnew (k + 1) c' w' (by simpa using h1) (by simpa using h2))
      (by
        intro a ha
        rw [hoth1 _ _ (by omega)]
        exact hsnap a (by omega)) hcm.2
    refine ⟨t2, ht2, hs2, ?_, ?_⟩
    · intro k c' w' hk hw
      cases k with
      | zero =>
        simp at hk hw
        subst hk; subst hw
        rw [Nat.add_zero]
        exact hst1.congr (hoth2 _ _ (by omega))
      | succ k =>
        have := hst2 k c' w' (by simpa using hk) (by simpa using hw)
        rwa [show i + (k + 1) = i + 1 + k by omega]
    · intro c' a' hne
      simp only [List.length_cons] at hne
      rw [hoth2 c' a' (by omega), hoth1 c' a' (by omega)]

end Verif.Toast
