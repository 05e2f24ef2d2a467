/-
Statements that give each column plain values or values of the same column: the stored form of a
value out of line is then always the same, so that no UPDATE keeps the chunks of another form.
-/
import Verif.Toast.Steps

namespace Verif.Toast

/-- The form in which a value is moved out of line. -/
def canon (cfg : Cfg) (m : Mode) (b : Bytes) : Flat :=
  if m = .external then ⟨false, b⟩
  else match cfg.pack b with
    | some p => ⟨true, p⟩
    | none => ⟨false, b⟩

/-- A value in memory that may be stored in a column: if it is compressed, then as the code
compresses it. -/
def Form (cfg : Cfg) (m : Mode) (f : Flat) : Prop :=
  f.comp = true → f = canon cfg m (raw cfg f)

/-- A field whose value is in the form the code gives it. -/
def CanonCell (cfg : Cfg) (i : Nat) (c : Cell) (v : Option Bytes) : Prop :=
  ∀ m, cfg.modes[i]? = some m →
    match c with
    | .inline f => Form cfg m f
    | .toasted _ s => ∀ b, v = some b → s = (canon cfg m b).image.length
    | _ => True

/-- A value of a slot in the form the code gives it, if it is moved out of line. -/
def CanonCol (cfg : Cfg) (m : Mode) (c : Col) (w : Option Bytes) : Prop :=
  c.mode = m ∧
  (∀ f, c.d = .flat f → Form cfg m f ∧ (w = some (raw cfg f)) ∧
    (c.flag = .on → f = canon cfg m (raw cfg f)) ∧
    (c.flag = .tried → m = .main ∧ f = canon cfg m (raw cfg f))) ∧
  (∀ p, c.d = .ext p → ∀ b, w = some b → p.size = (canon cfg m b).image.length) ∧
  (∀ f, c.d ≠ .heap f)

/-- The fact about column `i` of a slot. -/
def CanonAt (cfg : Cfg) (ws : List (Option Bytes)) (i : Nat) (c : Col) : Prop :=
  ∃ m w, cfg.modes[i]? = some m ∧ ws[i]? = some w ∧ CanonCol cfg m c w

theorem step1_canon {cfg : Cfg} (hg : Good cfg) {m : Mode} {c : Col} {w : Option Bytes}
    (h : CanonCol cfg m c w) (hc : cand1 c = true) : CanonCol cfg m (step1 cfg c) w := by
  obtain ⟨hm, hf, he, hh⟩ := h
  have hoff : c.flag = .off := by simp [cand1] at hc; exact hc.1.2
  unfold step1
  by_cases h1 : (c.d.isComp || c.mode == .external) = true
  · rw [if_pos h1]
    refine ⟨hm, ?_, he, hh⟩
    intro f hd
    obtain ⟨hf1, hf2, _⟩ := hf f hd
    refine ⟨hf1, hf2, fun _ => ?_, by simp⟩
    rw [Bool.or_eq_true] at h1
    rcases h1 with h1 | h1
    · rw [hd] at h1
      exact hf1 h1
    · have hme : m = .external := by rw [← hm]; simpa using h1
      by_cases hcp : f.comp = true
      · exact hf1 hcp
      · subst hme
        obtain ⟨cp, b⟩ := f
        simp at hcp
        subst hcp
        simp [canon, raw]
  · rw [if_neg h1]
    rw [Bool.or_eq_true, not_or] at h1
    obtain ⟨m', d, fl⟩ := c
    cases d with
    | null => simp [cand1] at hc
    | ext p => exact ⟨hm, fun f hd => (by cases hd), he, hh⟩
    | heap f => exact absurd rfl (hh f)
    | flat f =>
      obtain ⟨hf1, hf2, _⟩ := hf f rfl
      have hcomp : f.comp = false := by simpa [Datum.isComp] using h1.1
      have hme : m ≠ .external := by
        intro h; apply h1.2; rw [show m' = m from hm, h]; rfl
      have hraw : raw cfg f = f.bytes := by simp [raw, hcomp]
      simp only
      cases hp : cfg.pack f.bytes with
      | some b =>
        refine ⟨hm, ?_, ?_, ?_⟩
        · intro g hd
          simp at hd
          subst hd
          have hr : raw cfg ⟨true, b⟩ = f.bytes := raw_pack hg hp
          have hcan : (⟨true, b⟩ : Flat) = canon cfg m (raw cfg ⟨true, b⟩) := by
            rw [hr]; simp [canon, hme, hp]
          refine ⟨fun _ => hcan, by rw [hf2, hr, hraw], fun _ => hcan, ?_⟩
          intro hfl
          simp at hoff
          rw [hoff] at hfl; cases hfl
        · intro p hd; cases hd
        · intro g hd; cases hd
      | none =>
        have hcan : f = canon cfg m (raw cfg f) := by
          rw [hraw]
          simp only [canon, if_neg hme, hp]
          cases f; simp at hcomp; simp [hcomp]
        by_cases hmm : (m' == Mode.main) = true
        · simp only [hmm, if_true]
          refine ⟨hm, ?_, fun p hd => (by cases hd), fun g hd => (by cases hd)⟩
          intro g hd
          simp at hd
          subst hd
          exact ⟨hf1, hf2, fun _ => hcan, fun _ => ⟨by rw [← hm]; simpa using hmm, hcan⟩⟩
        · simp only [if_neg hmm]
          refine ⟨hm, ?_, fun p hd => (by cases hd), fun g hd => (by cases hd)⟩
          intro g hd
          simp at hd
          subst hd
          exact ⟨hf1, hf2, fun _ => hcan, by simp⟩

/-- What the second loop does, if the first left nothing to treat. -/
theorem loop2_canon {cfg : Cfg} {ws : List (Option Bytes)} : ∀ (fuel : Nat) (cs : List Col),
    (∀ (k : Nat) c, cs[k]? = some c → CanonAt cfg ws k c ∧ Done1 c) →
      ∀ (k : Nat) c, (loop2 cfg fuel cs)[k]? = some c → CanonAt cfg ws k c := by
  intro fuel
  induction fuel with
  | zero => intro cs h k c hk; exact (h k c hk).1
  | succ fuel ih =>
    intro cs h
    unfold loop2
    by_cases hc : fits cfg cs = true
    · rw [if_pos hc]; exact fun k c hk => (h k c hk).1
    · rw [if_neg hc]
      cases hp : pickGo cfg cand2 cs 0 0 none with
      | none => exact fun k c hk => (h k c hk).1
      | some i =>
        obtain ⟨x, hx, hcx⟩ := pick_some hp
        apply ih (cs.modify i fun c => { c with flag := .on })
        refine forall_modify (P := fun k c => CanonAt cfg ws k c ∧ Done1 c) h ?_
        intro c hc'
        rw [hx] at hc'
        have : x = c := by simpa using hc'
        subst this
        obtain ⟨⟨m, w, hm, hw, h1, h2, h3, h4⟩, hd⟩ := h i x hx
        simp [cand2] at hcx
        refine ⟨⟨m, w, hm, hw, h1, ?_, h3, h4⟩, by intro hx'; simp [cand1] at hx'⟩
        intro f hf
        obtain ⟨hf1, hf2, hf3, hf4⟩ := h2 f hf
        refine ⟨hf1, hf2, fun _ => ?_, by simp⟩
        cases hfl : x.flag with
        | on => exact absurd hfl hcx.1.2
        | tried => exact (hf4 hfl).2
        | off =>
          by_cases hcp : f.comp = true
          · exact hf1 hcp
          · exfalso
            refine absurd (hd ?_) hcx.1.1
            have hi : x.d.isComp = false := by rw [hf]; simpa [Datum.isComp] using hcp
            simp [cand1, hcx.1.1, hfl, hi]

theorem toastCols_canon {cfg : Cfg} (hg : Good cfg) {ws : List (Option Bytes)} {cs : List Col}
    (hl : cs.length = cfg.modes.length)
    (h : ∀ (k : Nat) c, cs[k]? = some c → CanonAt cfg ws k c ∧ c.flag = .off) :
    ∀ (k : Nat) c, (toastCols cfg cs)[k]? = some c → CanonAt cfg ws k c := by
  unfold toastCols
  by_cases h1 : (!cs.any (·.d.isPtr) && fits cfg cs) = true
  · rw [if_pos h1]; exact fun k c hk => (h k c hk).1
  · rw [if_neg h1]
    by_cases h2 : (!fits cfg (cs.map fun c => { c with flag := .on })) = true
    · rw [if_pos h2]; exact fun k c hk => (h k c hk).1
    · rw [if_neg h2]
      simp only
      obtain ⟨cs1, hcs1⟩ : ∃ x, x = cs.map fun c =>
        if c.d.isPtr then { c with flag := Flag.on } else c := ⟨_, rfl⟩
      rw [← hcs1]
      have hl1 : cs1.length = cs.length := by rw [hcs1, List.length_map]
      have hc1 : ∀ (k : Nat) c, cs1[k]? = some c → CanonAt cfg ws k c := by
        intro k c hk
        rw [hcs1, List.getElem?_map] at hk
        obtain ⟨x, hx, rfl⟩ := Option.map_eq_some_iff.mp hk
        obtain ⟨hcx, hfx⟩ := h k x hx
        by_cases hp : x.d.isPtr = true
        · rw [if_pos hp]
          obtain ⟨m, w, hm, hw, a1, a2, a3, a4⟩ := hcx
          refine ⟨m, w, hm, hw, a1, ?_, a3, a4⟩
          intro f hf
          simp at hf
          rw [hf] at hp
          simp [Datum.isPtr] at hp
        · rw [if_neg hp]; exact hcx
      have hr := sum_rounds_le cs1
      have he1 := loop1_end (cfg := cfg) hg.ptr (2 * cs.length + 1) cs1 (by omega)
      have hk1 : ∀ (fuel : Nat) (l : List Col), (∀ (k : Nat) c, l[k]? = some c →
          CanonAt cfg ws k c) →
          ∀ (k : Nat) c, (loop1 cfg fuel l)[k]? = some c → CanonAt cfg ws k c := by
        intro fuel
        induction fuel with
        | zero => intro l hl'; exact hl'
        | succ fuel ih =>
          intro l hl'
          unfold loop1
          by_cases hc : ((l.filter (·.flag != .off)).length < l.length && !fits cfg l) = true
          · rw [if_pos (by simpa using hc)]
            cases hp : pickGo cfg cand1 l 0 0 none with
            | none => exact hl'
            | some i =>
              obtain ⟨x, hx, hcx⟩ := pick_some hp
              apply ih
              refine forall_modify hl' ?_
              intro c hc'
              rw [hx] at hc'
              have : x = c := by simpa using hc'
              subst this
              obtain ⟨m, w, hm, hw, hcc⟩ := hl' i x hx
              exact ⟨m, w, hm, hw, step1_canon hg hcc hcx⟩
          · rw [if_neg (by simpa using hc)]; exact hl'
      have hc2 := hk1 (2 * cs.length + 1) cs1 hc1
      obtain ⟨cs2, hcs2⟩ : ∃ x, x = loop1 cfg (2 * cs.length + 1) cs1 := ⟨_, rfl⟩
      rw [← hcs2] at hc2 he1 ⊢
      have hc3 : ∀ (k : Nat) c, (loop2 cfg (cs.length + 1) cs2)[k]? = some c →
          CanonAt cfg ws k c := by
        rcases he1 with he1 | he1
        · unfold loop2
          rw [if_pos he1]; exact hc2
        · exact loop2_canon _ _ fun k c hk => ⟨hc2 k c hk, he1 c (List.mem_of_getElem? hk)⟩
      intro k c hk
      rw [List.getElem?_map] at hk
      obtain ⟨x, hx, hxc⟩ := Option.map_eq_some_iff.mp hk
      have hx3 := hc3 k x hx
      by_cases hfl : x.flag = .tried
      · rw [if_pos hfl] at hxc
        rw [← hxc]
        obtain ⟨m, w, hm, hw, a1, a2, a3, a4⟩ := hx3
        refine ⟨m, w, hm, hw, a1, ?_, a3, a4⟩
        intro f hf
        obtain ⟨b1, b2, _, _⟩ := a2 f hf
        exact ⟨b1, b2, by simp, by simp⟩
      · rw [if_neg hfl] at hxc
        rw [← hxc]; exact hx3

/-- What a statement may give for column `i`: null, a value that is not compressed, or the same
column of some row. -/
def plainSrc (i : Nat) : Src → Prop
  | .null => True
  | .value f => f.comp = false
  | .heap _ => False
  | .copy _ a => a = i

/-- A statement that gives each column null, a plain value, or the same column of some row. -/
def Op.plain (op : Op) : Prop := ∀ (i : Nat) s, op.srcs[i]? = some s → plainSrc i s

theorem srcDatum_canon {cfg : Cfg} {db : Db} {tbl : Spec.Tbl}
    (h : RowsOk cfg (CanonCell cfg) db.tree db.rows tbl) {i : Nat} {m : Mode}
    (hm : cfg.modes[i]? = some m) {s : Src} (hs : plainSrc i s) {d : Datum}
    (hd : srcDatum cfg db.rows s = some d) :
    CanonCol cfg m ⟨m, d, .off⟩ (Spec.value cfg.cls cfg.unpack tbl s) := by
  cases s with
  | null =>
    simp [srcDatum] at hd
    subst hd
    exact ⟨rfl, fun f hf => (by cases hf), fun p hp => (by cases hp), fun f hf => (by cases hf)⟩
  | heap f => exact False.elim hs
  | value f =>
    simp [srcDatum] at hd
    subst hd
    refine ⟨rfl, ?_, fun p hp => (by cases hp), fun f hf => (by cases hf)⟩
    intro g hg
    simp at hg
    subst hg
    refine ⟨?_, rfl, by simp, by simp⟩
    intro hc
    rw [show f.comp = false from hs] at hc
    cases hc
  | copy k a =>
    have ha : a = i := hs
    subst ha
    simp only [srcDatum, Spec.value] at hd ⊢
    have hnull : d = .null → ∀ w, CanonCol cfg m ⟨m, d, .off⟩ w := by
      intro hdn w
      subst hdn
      exact ⟨rfl, fun f hf => (by cases hf), fun p hp => (by cases hp), fun f hf => (by cases hf)⟩
    rcases h.find k with ⟨h1, h2⟩ | ⟨r, x, h1, h2, h3, h4⟩
    · rw [h1] at hd
      simp at hd
      exact hnull hd.symm _
    · rw [h1] at hd
      rw [h2]
      simp only at hd ⊢
      cases hc : r.cells[a]? with
      | none =>
        rw [hc] at hd
        simp at hd
        exact hnull hd.symm _
      | some c =>
        rw [hc] at hd
        simp only at hd
        have hlt : a < x.2.length := by
          rw [h4.lenv, ← h4.len]; exact (List.getElem?_eq_some_iff.mp hc).1
        have hv : x.2[a]? = some x.2[a] := List.getElem?_eq_getElem hlt
        have hst := h4.cells a c _ hc hv
        have hcc := h4.extra a c _ hc hv m hm
        rw [List.getD_eq_getElem?_getD, hv]
        simp only [Option.getD_some]
        obtain ⟨v, hvv⟩ : ∃ v, v = x.2[a] := ⟨_, rfl⟩
        rw [← hvv] at hst hcc ⊢
        cases c with
        | null =>
          simp [slotDatum] at hd
          exact hnull hd.symm _
        | pointer => exact False.elim hst
        | inline f =>
          simp [slotDatum] at hd
          subst hd
          refine ⟨rfl, ?_, fun p hp => (by cases hp), fun f hf => (by cases hf)⟩
          intro g hg
          simp at hg
          subst hg
          exact ⟨hcc, hst.1, by simp, by simp⟩
        | toasted r' s' =>
          simp [slotDatum] at hd
          subst hd
          refine ⟨rfl, fun f hf => (by cases hf), ?_, fun f hf => (by cases hf)⟩
          intro p hp b hb
          simp at hp
          subst hp
          exact hcc b hb

theorem slot_canon {cfg : Cfg} {db : Db} {tbl : Spec.Tbl}
    (h : RowsOk cfg (CanonCell cfg) db.tree db.rows tbl) {srcs : List Src}
    (hp : ∀ (i : Nat) s, srcs[i]? = some s → plainSrc i s) {cs : List Col}
    (hcs : slotOf cfg db.rows srcs = some cs) :
    ∀ (k : Nat) c, cs[k]? = some c →
      CanonAt cfg (srcs.map (Spec.value cfg.cls cfg.unpack tbl)) k c ∧ c.flag = .off := by
  unfold slotOf at hcs
  obtain ⟨ds, hds, rfl⟩ := Option.map_eq_some_iff.mp hcs
  have hget : ∀ (l : List Src) (ds : List Datum), l.mapM (srcDatum cfg db.rows) = some ds →
      ∀ (k : Nat) d, ds[k]? = some d → ∃ s, l[k]? = some s ∧ srcDatum cfg db.rows s = some d := by
    intro l
    induction l with
    | nil =>
      intro ds h k d hd
      simp at h
      subst h
      simp at hd
    | cons s l ih =>
      intro ds h k d hd
      rw [List.mapM_cons] at h
      cases hs : srcDatum cfg db.rows s with
      | none => rw [hs] at h; simp at h
      | some d0 =>
        rw [hs] at h
        cases hl : l.mapM (srcDatum cfg db.rows) with
        | none => rw [hl] at h; simp at h
        | some ds' =>
          rw [hl] at h
          simp at h
          subst h
          cases k with
          | zero =>
            simp at hd
            subst hd
            exact ⟨s, by simp, hs⟩
          | succ k =>
            obtain ⟨s', h1, h2⟩ := ih ds' hl k d (by simpa using hd)
            exact ⟨s', by simpa using h1, h2⟩
  intro k c hc
  rw [List.getElem?_zipWith] at hc
  cases hm : cfg.modes[k]? with
  | none => rw [hm] at hc; simp at hc
  | some m =>
    cases hd : ds[k]? with
    | none => rw [hm, hd] at hc; simp at hc
    | some d =>
      rw [hm, hd] at hc
      simp at hc
      obtain ⟨s, hs, hsd⟩ := hget srcs ds hds k d hd
      rw [← hc]
      refine ⟨⟨m, _, hm, ?_, srcDatum_canon h hm (hp k s hs) hsd⟩, rfl⟩
      rw [List.getElem?_map, hs]; rfl

/-- Only values that are not null are marked. -/
theorem on_nonnull {cfg : Cfg} (hg : Good cfg) {cs : List Col} (hl : cs.length = cfg.modes.length)
    (h0 : ∀ (k : Nat) c, cs[k]? = some c → c.flag = .off) :
    ∀ (k : Nat) c, (toastCols cfg cs)[k]? = some c → c.flag = .on → c.d ≠ .null := by
  refine (toastCols_keeps (P := fun _ c => c.flag = .on → c.d ≠ .null) (cfg := cfg) ⟨?_, ?_⟩
    (by rw [hl]; exact hg.narrow) ?_ (by intro _ _ _ _ ho; simp at ho)).1
  · intro _ c _ hc1 _
    simp [cand1] at hc1
    unfold step1
    split
    · exact hc1.1.1
    · split
      · split
        · simp
        · split <;> exact hc1.1.1
      · exact hc1.1.1
  · intro _ c _ hc2 _
    simp [cand2] at hc2
    exact hc2.1.1
  · intro k c hk
    by_cases hpt : c.d.isPtr = true
    · rw [if_pos hpt]; intro _ hn; rw [hn] at hpt; simp [Datum.isPtr] at hpt
    · rw [if_neg hpt]; intro ho; rw [h0 k c hk] at ho; cases ho

/-- What a plain statement stores is in the form the code gives it. -/
theorem gives_canon {cfg : Cfg} (hg : Good cfg) {db : Db} {tbl : Spec.Tbl}
    (h : Inv cfg (CanonCell cfg) db tbl) {srcs : List Src}
    (hp : ∀ (i : Nat) s, srcs[i]? = some s → plainSrc i s) :
    Gives cfg (CanonCell cfg) db tbl srcs := by
  intro cs hcs hl k c w hc hw m hm
  obtain ⟨m', w', hm', hw', h1, h2, h3, h4⟩ :=
    toastCols_canon hg hl (slot_canon h.rows hp hcs) k c hc
  rw [hm] at hm'
  rw [hw] at hw'
  have hmm : m = m' := by simpa using hm'
  have hww : w = w' := by simpa using hw'
  subst hmm
  subst hww
  unfold cellOf
  obtain ⟨mode, d, fl⟩ := c
  by_cases hf : fl = .on
  · simp only [if_pos hf]
    intro b hb
    cases d with
    | null =>
      exfalso
      exact on_nonnull hg hl (fun k c hk => (slot_canon h.rows hp hcs k c hk).2) k _ hc hf rfl
    | flat f =>
      obtain ⟨_, a2, a3, _⟩ := h2 f rfl
      have := a3 hf
      rw [a2] at hb
      simp at hb
      simp only [srcSize]
      rw [← hb, ← this]
    | ext p => exact h3 p rfl b hb
    | heap f => exact absurd rfl (h4 f)
  · simp only [if_neg hf]
    cases d with
    | null => trivial
    | flat f => exact (h2 f rfl).1
    | ext p => trivial
    | heap f => trivial

theorem calmCols_of {cfg : Cfg} {snap : Tree} {key : Nat} :
    ∀ (os : List Cell) (cs : List Col) (i : Nat),
      (∀ (k : Nat) o c, os[k]? = some o → cs[k]? = some c →
        calmCol cfg snap key (i + k) o c = true) → calmCols cfg snap key i os cs = true := by
  intro os
  induction os with
  | nil => intro cs i _; unfold calmCols; rfl
  | cons o os ih =>
    intro cs i h
    cases cs with
    | nil => unfold calmCols; rfl
    | cons c cs =>
      unfold calmCols
      rw [Bool.and_eq_true]
      have h0 := h 0 o c (by simp) (by simp)
      rw [Nat.add_zero] at h0
      refine ⟨h0, ih cs (i + 1) ?_⟩
      intro k o' c' h1 h2
      have := h (k + 1) o' c' (by simpa using h1) (by simpa using h2)
      rwa [show i + (k + 1) = i + 1 + k by omega] at this

/-- Plain statements are calm, if keys that compare equal are equal. -/
theorem plain_calm {cfg : Cfg} (hg : Good cfg) (hcls : ∀ a b, cfg.cls a = cfg.cls b → a = b)
    {db : Db} {tbl : Spec.Tbl} (h : Inv cfg (CanonCell cfg) db tbl) {op : Op} (hp : op.plain)
    (hl : op.srcs.length = cfg.modes.length ∨ ∀ k k' srcs, op ≠ .update k k' srcs) :
    calm cfg db op = true := by
  cases op with
  | insert k srcs => rfl
  | delete k => rfl
  | update k k' srcs =>
    have hl' : srcs.length = cfg.modes.length := by
      rcases hl with hl | hl
      · exact hl
      · exact absurd rfl (hl k k' srcs)
    simp only [calm]
    rcases h.rows.find k with ⟨h1, _⟩ | ⟨old, x, h1, h2, h3, h4⟩
    · rw [h1]
    · rw [h1]
      simp only
      by_cases hkk : old.key = k'
      · rw [if_pos hkk]
        obtain ⟨cs, hcs, hlen, hcols⟩ := slotOf_ok hg h.rows hl'
        rw [hcs]
        simp only
        apply calmCols_of
        intro i o c ho hc
        rw [Nat.zero_add]
        unfold calmCol
        cases o with
        | null => rfl
        | inline f => rfl
        | pointer => rfl
        | toasted r s =>
          simp only
          by_cases hf : c.flag = .on
          · have hlt : i < cfg.modes.length := by
              rw [← h4.len]; exact (List.getElem?_eq_some_iff.mp ho).1
            have hv : x.2[i]? = some (x.2[i]'(by rw [h4.lenv]; exact hlt)) :=
              List.getElem?_eq_getElem _
            have hm : cfg.modes[i]? = some cfg.modes[i] := List.getElem?_eq_getElem hlt
            have hold := h4.cells i _ _ ho hv
            have hcan := h4.extra i _ _ ho hv _ hm
            obtain ⟨v, hvv⟩ : ∃ v, v = x.2[i]'(by rw [h4.lenv]; exact hlt) := ⟨_, rfl⟩
            rw [← hvv] at hold hcan
            obtain ⟨g, g1, g2, g3, g4⟩ := hold
            have hsrc : srcValue cfg db.tree (.ext ⟨old.key, i, r, s⟩) = some g := by
              simp only [srcValue, g3]
              exact detoast_ok (hg.chunk old.key) g4
            obtain ⟨_, hlt', hok⟩ := toastCols_ok hg hlen
              (by rw [List.length_map, hl', hlen]) hcols
            have hw : ∃ w, (srcs.map (Spec.value cfg.cls cfg.unpack tbl))[i]? = some w :=
              ⟨_, List.getElem?_eq_getElem (by rw [List.length_map, hl']; exact hlt)⟩
            obtain ⟨w, hw⟩ := hw
            have hcok := hok i c w hc hw
            obtain ⟨f, f1, f2, f3, f4, f5⟩ := on_value hcok hf
            have hnew := gives_canon hg h hp cs hcs hlen i c w hc hw _ hm
            rw [f5] at hnew
            have hn := hnew _ f4
            have ho' := hcan _ g1
            rw [f1, hsrc]
            simp only
            by_cases heq : raw cfg f = raw cfg g
            · have : srcSize c.d = s := by rw [f3, hn, ho', heq]
              simp [this]
            · simp [heq]
          · simp [hf]
      · rw [if_neg hkk]
        have : cfg.cls old.key ≠ cfg.cls k' := fun hc => hkk (hcls _ _ hc)
        simpa using this

theorem plain_run {cfg : Cfg} (hg : Good cfg) (hcls : ∀ a b, cfg.cls a = cfg.cls b → a = b) :
    ∀ (ops : List Op) (db : Db) (tbl : Spec.Tbl), Inv cfg (CanonCell cfg) db tbl →
      (∀ op ∈ ops, op.plain) →
      ∃ db', runFrom cfg db ops = some db' ∧ Inv cfg (CanonCell cfg) db'
        (ops.foldl (Spec.apply cfg.modes.length cfg.cls cfg.unpack) tbl) := by
  intro ops
  induction ops with
  | nil => intro db tbl hi _; exact ⟨db, rfl, hi⟩
  | cons op ops ih =>
    intro db tbl hi hp
    have hop := hp op (List.mem_cons_self ..)
    have hst : ∃ db', step cfg db op = some db' ∧ Inv cfg (CanonCell cfg) db'
        (Spec.apply cfg.modes.length cfg.cls cfg.unpack tbl op) := by
      by_cases hl : op.srcs.length = cfg.modes.length
      · exact step_ok hg hi op (plain_calm hg hcls hi hop (Or.inl hl)) (gives_canon hg hi hop)
      · cases op with
        | insert k srcs => exact insert_ok hg hi k srcs (gives_canon hg hi hop)
        | delete k => exact delete_ok hi k
        | update k k' srcs =>
          have hl' : srcs.length ≠ cfg.modes.length := hl
          refine ⟨db, ?_, ?_⟩
          · simp only [step, doOp]
            cases findRow cfg k db.rows with
            | none => rfl
            | some old => simp [hl']
          · simp only [Spec.apply, ne_eq, hl', not_false_eq_true, true_or, or_true, if_true]
            exact hi
    obtain ⟨db1, h1, hi1⟩ := hst
    obtain ⟨db2, h2, hi2⟩ := ih db1 _ hi1 fun o ho => hp o (List.mem_cons_of_mem _ ho)
    refine ⟨db2, ?_, hi2⟩
    unfold runFrom
    rw [h1]
    exact h2

end Verif.Toast
