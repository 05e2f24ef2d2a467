import Verif.Image.Sync
/-!
# The replay before it has met the first change of the row: the image is ahead of the log
-/

namespace Verif.Image

/-- The row is still as in the checkpoint's image of the state `s2`. -/
structure Ahead (A : Nat → Prop) (t0 : Nat) (s2 s : PSt) (r : St) : Prop where
  chain : r.chain = s2.chain.map img
  now : r.now = s.now
  t0le : t0 ≤ s.now
  done : r.done = s.done
  sp : ∀ x, ∃ old, s.sps x = r.rsp x ++ old ∧ ∀ p ∈ old, p.2 < t0
  ck : ∀ x, s.fin x = false → ¬ A x → (r.ck x).isSome = true

/-- Does the event change the row? -/
def changes (e : Ev) : Bool := touches e.xid e

theorem changes_iff {x : Nat} {e : Ev} (h : touches x e = true) : changes e = true ∧ x = e.xid := by
  cases e <;> simp_all [touches, changes, Ev.xid]

theorem img_absent {c : Chain} {x : Nat} (h : ∀ v ∈ c, v.xid ≠ x) : ∀ v ∈ c.map img, v.xid ≠ x := by
  intro v hv
  obtain ⟨u, hu, rfl⟩ := List.mem_map.mp hv
  exact h u hu

/-- A record which is not a change of the row. -/
theorem ahead_other {A : Nat → Prop} {t0 : Nat} {late : Bool} {s2 s s' : PSt} {r : St} {e : Ev}
    {rc : Rec} (h : Ahead A t0 s2 s r) (hA : ∀ x, subtran x e = true → A x)
    (habs : ∀ x, A x → ∀ v ∈ s2.chain, v.xid ≠ x)
    (hfin : ∀ x, e = .fin x false → ∀ v ∈ s2.chain, v.xid ≠ x) (hn : changes e = false)
    (hs : pstep s e = some (s', rc)) :
    ∃ r', rstep late r rc = some r' ∧ Ahead A t0 s2 s' r' ∧ r'.seen = set r.seen e.xid true := by
  have hle := h.t0le
  have hck : ∀ x, A x → ∀ id (p : Ver → Bool), (∀ v, p v = true → v.xid = x) →
      ckBack r x id (r.chain.dropWhile p) = r.chain := by
    intro x hx id p hp
    have hab := img_absent (habs x hx)
    rw [← h.chain] at hab
    have e1 : r.chain.dropWhile p = r.chain := by
      refine drop_none (fun v hv => ?_)
      cases hpv : p v with
      | false => rfl
      | true => exact absurd (hp v hpv) (hab v hv)
    rw [e1]
    exact ckBack_same (fun v hv hvx => absurd hvx (hab v hv))
  have hckd : ∀ x, A x → ∀ z, s.fin z = false → ¬ A z → (ckDrop r x z).isSome = true := by
    intro x hx z hz hnA
    have : z ≠ x := by rintro rfl; exact hnA hx
    rw [ckDrop, set_other _ _ this]
    exact h.ck z hz hnA
  have hfm : ∀ x z, set s.fin x true z = false → s.fin z = false := by
    intro x z hz
    by_cases hzx : z = x
    · subst hzx; rw [set_same] at hz; cases hz
    · rwa [set_other _ _ hzx] at hz
  cases e with
  | see x =>
    obtain ⟨hx, rfl, rfl⟩ := step_see hs
    refine ⟨_, rfl, ⟨h.chain, by simp [h.now], ?_, h.done, h.sp, h.ck⟩, rfl⟩
    show t0 ≤ s.now + 1
    omega
  | ins x v => simp [changes, touches, Ev.xid] at hn
  | upd x v => simp [changes, touches, Ev.xid] at hn
  | del x => simp [changes, touches, Ev.xid] at hn
  | sp x =>
    obtain ⟨hx, rfl, rfl⟩ := step_sp hs
    have hAx := hA x (by simp [subtran])
    refine ⟨_, rfl, ⟨?_, by simp [h.now], ?_, h.done, ?_, hckd x hAx⟩, rfl⟩
    · show ckBack r x _ r.chain = _
      have := hck x hAx (parent (s.sps x)) (fun _ => false) (by simp)
      rw [drop_none (by simp)] at this
      rw [this, h.chain]
    · show t0 ≤ s.now + 1
      omega
    · intro z
      obtain ⟨old, ho, hlt⟩ := h.sp z
      refine ⟨old, ?_, hlt⟩
      show set s.sps x _ z = set r.rsp x _ z ++ old
      by_cases hz : z = x
      · subst hz
        rw [set_same, set_same, ho, h.now]
        rfl
      · rw [set_other _ _ hz, set_other _ _ hz]
        exact ho
  | rb x =>
    obtain ⟨hx, id, t, rest, hsp, rfl, rfl⟩ := step_rb hs
    have hAx := hA x (by simp [subtran])
    refine ⟨_, rfl, ⟨?_, by simp [h.now], ?_, h.done, ?_, hckd x hAx⟩, rfl⟩
    · show ckBack r x id (back r x id r.chain) = _
      have : ∃ p : Ver → Bool, back r x id r.chain = r.chain.dropWhile p ∧ ∀ v, p v = true → v.xid = x := by
        simp only [back]
        split
        · exact ⟨_, rfl, fun v hv => by simp at hv; exact hv.1⟩
        · split
          · exact ⟨_, rfl, fun v hv => by simp at hv; exact hv.1.1⟩
          · exact ⟨_, rfl, fun v hv => by simp at hv; exact hv.1⟩
      obtain ⟨p, e1, e2⟩ := this
      rw [e1, hck x hAx id p e2, h.chain]
    · show t0 ≤ s.now + 1
      omega
    · intro z
      obtain ⟨old, ho, hlt⟩ := h.sp z
      show ∃ old', set s.sps x rest z = set r.rsp x (backSp r x id) z ++ old' ∧ ∀ p ∈ old', p.2 < t0
      by_cases hz : z = x
      · subst hz
        rw [set_same, set_same]
        rw [hsp] at ho
        cases hr : r.rsp z with
        | nil =>
          rw [hr, List.nil_append] at ho
          exact ⟨rest, by simp [backSp, hr], fun p hp => hlt p (by rw [← ho]; simp [hp])⟩
        | cons q l =>
          rw [hr, List.cons_append] at ho
          obtain ⟨rfl, h2⟩ := List.cons.inj ho
          exact ⟨old, by simp [backSp, hr, h2], hlt⟩
      · rw [set_other _ _ hz, set_other _ _ hz]
        exact ⟨old, ho, hlt⟩
  | fin x ok =>
    cases ok with
    | true =>
      obtain ⟨hx, rfl, rfl⟩ := step_commit hs
      refine ⟨_, rfl, ⟨h.chain, by simp [h.now], ?_, ?_, h.sp, ?_⟩, rfl⟩
      · show t0 ≤ s.now + 1
        omega
      · show set r.done x true = set s.done x true
        rw [h.done]
      · exact fun z hz => h.ck z (hfm x z hz)
    | false =>
      obtain ⟨hx, rfl, rfl⟩ := step_abort hs
      refine ⟨_, rfl,
        ⟨?_, by simp [h.now], ?_, h.done, h.sp, ?_⟩, rfl⟩
      · show abort r x r.chain = _
        have hab := img_absent (hfin x rfl)
        rw [← h.chain] at hab
        have e1 : ∀ p : Ver → Bool, (∀ v, p v = true → v.xid = x) → r.chain.dropWhile p = r.chain := by
          intro p hp
          refine drop_none (fun v hv => ?_)
          cases hpv : p v with
          | false => rfl
          | true => exact absurd (hp v hpv) (hab v hv)
        simp only [abort]
        rw [e1 _ (fun v hv => by simp at hv; exact hv.1)]
        split
        · exact h.chain
        · rw [e1 _ (fun v hv => by simp at hv; exact hv.1)]
          exact h.chain
      · show t0 ≤ s.now + 1
        omega
      · exact fun z hz => h.ck z (hfm x z hz)

/-- The row in the image and the row on the primary server, apart at the last commit the replay knows. -/
theorem ahead_parts {A : Nat → Prop} {t0 : Nat} {s2 s : PSt} {r : St} {x : Nat} {a b : Chain}
    {es : List Ev} {rs : List Rec} (hi : PInv s) (h : Ahead A t0 s2 s r) (hp : Parts s x a b)
    (hs : prun s es = some (s2, rs)) :
    ∃ P, r.chain = P ++ b.map img ∧ (∀ v ∈ P, r.done v.xid = false) ∧
      (∀ v ∈ b.map img, r.done v.xid = true) ∧ Layered (P ++ b.map img) ∧
      ∃ P', P = P'.map img ∧ s2.chain = P' ++ b := by
  obtain ⟨P, hc, hP⟩ := prun_bottom (done := s.done) hi.df hp.eq
    (fun v hv => by rw [hp.above v hv]; exact hi.live (hp.open' (by rintro rfl; simp at hv)))
    hp.below hs
  have hr : r.chain = P.map img ++ b.map img := by rw [h.chain, hc, List.map_append]
  refine ⟨P.map img, hr, ?_, ?_, ?_, P, rfl, hc⟩
  · intro v hv
    obtain ⟨u, hu, rfl⟩ := List.mem_map.mp hv
    rw [h.done]; exact hP u hu
  · intro v hv
    obtain ⟨u, hu, rfl⟩ := List.mem_map.mp hv
    rw [h.done]; exact hp.below u hu
  · rw [← List.map_append]
    exact layered_img _

theorem Ahead.toSync {A : Nat → Prop} {t0 : Nat} {s2 s s' : PSt} {r : St} {y : Nat} {v : Ver}
    {c : Chain} (h : Ahead A t0 s2 s r) (hp : Pushed s s' y v) (hl : Layered c)
    (hb : ∃ x a b a' b', Beside A t0 s' c x a b a' b') :
    Sync A t0 s' { r with chain := c, seen := set r.seen y true, now := r.now + 1 } := by
  refine ⟨?_, ?_, ?_, hl, ?_, ?_, hb⟩
  · show r.now + 1 = s'.now
    rw [hp.now', h.now]
  · rw [hp.now']
    have := h.t0le
    omega
  · show r.done = s'.done
    rw [hp.done', h.done]
  · intro z
    rw [hp.sps']
    exact h.sp z
  · intro z hz
    rw [hp.fin'] at hz
    exact h.ck z hz

/-- The first change of the row. -/
theorem ahead_change {A : Nat → Prop} {t0 : Nat} {s2 s s' : PSt} {r r' : St} {e : Ev} {rc : Rec}
    {es : List Ev} {rs : List Rec} (hi : PInv s) (h : Ahead A t0 s2 s r)
    (hA : ∀ x, touches x e = true → ¬ A x)
    (hn : changes e = true) (hs : pstep s e = some (s', rc)) (hr : prun s' es = some (s2, rs))
    (hrs : rstep false r rc = some r') : Sync A t0 s' r' := by
  obtain ⟨x, a, b, hp⟩ := hi.parts
  have hfull : prun s (e :: es) = some (s2, rc :: rs) := by simp only [prun, hs, hr]
  obtain ⟨P, hrc, hP, hb, hl, _⟩ := ahead_parts hi h hp hfull
  have hput : ∀ {y v n c}, ¬ A y → Pushed s s' y ⟨y, n, some v, s.now, false⟩ →
      conflict r y r.chain = some c →
      Sync A t0 s' { r with chain := put r y v n c, seen := set r.seen y true, now := r.now + 1 } := by
    intro y v n c hny hpu hcf
    rw [hrc] at hcf
    obtain ⟨a1, rfl, ha1, hl1⟩ := conflict_form hcf hP hb hl
    have hnb : ∀ w ∈ b.map img, w.xid ≠ y := img_absent (hp.notBelow hi hpu.fin)
    obtain ⟨a2, e2, ha2, hl2⟩ := put_form (r := r) (v := v) (n := n) ha1 hnb hl1
    rw [e2]
    refine h.toSync hpu hl2 ⟨y, _, b, ⟨y, n, some v, r.now, false⟩ :: a2, b.map img,
      hp.push hi hpu, rfl, ?_, ?_, by simp, look_img b, rfl, fun hAy => absurd hAy hny⟩
    · rw [hpu.done', ← h.done]; exact hb
    · intro w hw
      rcases List.mem_cons.mp hw with rfl | hw
      · rfl
      · exact ha2 w hw
  cases e with
  | see x => simp [changes, touches] at hn
  | sp x => simp [changes, touches] at hn
  | rb x => simp [changes, touches] at hn
  | fin x ok => simp [changes, touches] at hn
  | ins y v =>
    obtain ⟨hpu, rfl, _⟩ := step_ins hs
    have hny := hA y (by simp [touches])
    simp only [rstep] at hrs
    split at hrs
    · cases hrs
    · rename_i c hcf
      obtain rfl := Option.some.inj hrs
      exact hput hny hpu hcf
  | upd y v =>
    obtain ⟨hpu, rfl, _⟩ := step_upd hs
    have hny := hA y (by simp [touches])
    simp only [rstep] at hrs
    split at hrs
    · cases hrs
    · rename_i c hcf
      simp only [Bool.false_eq_true, if_false] at hrs
      obtain rfl := Option.some.inj hrs
      exact hput hny hpu hcf
  | del y =>
    obtain ⟨u, d, hc, hu, hpu, rfl⟩ := step_del hs
    have hny := hA y (by simp [touches])
    simp only [rstep] at hrs
    split at hrs
    · cases hrs
    · rename_i c hcf
      obtain rfl := Option.some.inj hrs
      rw [hrc] at hcf
      obtain ⟨a1, rfl, ha1, hl1⟩ := conflict_form hcf hP hb hl
      have hnb : ∀ w ∈ b.map img, w.xid ≠ y := img_absent (hp.notBelow hi hpu.fin)
      obtain ⟨a2, e2, ha2, ht2, hl2⟩ := del_form (r := r) (n := u.ver) ha1 hnb hl1
      rw [e2]
      refine h.toSync hpu hl2 ⟨y, _, b, a2, b.map img,
        hp.push hi hpu, rfl, ?_, ha2, by simp, look_img b, ?_, fun hAy => absurd hAy hny⟩
      · rw [hpu.done', ← h.done]; exact hb
      · rw [look_none ht2]; rfl

/-- The image reached without a change of the row. -/
theorem ahead_end {A : Nat → Prop} {t0 : Nat} {s2 : PSt} {r : St} (hi : PInv s2)
    (h : Ahead A t0 s2 s2 r) (habs : ∀ x, A x → ∀ v ∈ s2.chain, v.xid ≠ x) : Sync A t0 s2 r := by
  obtain ⟨x, a, b, hp⟩ := hi.parts
  obtain ⟨P, hrc, hP, hb, hl, P', rfl, hc⟩ := ahead_parts (es := []) (rs := []) hi h hp rfl
  have hPa : P' = a := by
    rw [hp.eq] at hc
    exact (List.append_cancel_right hc).symm
  subst hPa
  refine ⟨h.now, h.t0le, h.done, by rw [hrc]; exact hl, h.sp, h.ck, x, P', b, P'.map img, b.map img,
    hp, hrc, by rw [← h.done]; exact hb, ?_, ?_, look_img b, ?_, ?_⟩
  · intro v hv
    obtain ⟨u, hu, rfl⟩ := List.mem_map.mp hv
    exact hp.above u hu
  · rintro rfl; rfl
  · rw [← List.map_append, look_img]
  · intro hAx
    have : P' = [] := by
      cases P' with
      | nil => rfl
      | cons v l =>
        exact absurd (hp.above v (by simp)) (habs x hAx v (by rw [hp.eq]; simp))
    subst this
    exact ⟨rfl, by simp⟩

/-- An abort takes the transaction's versions off the row for good. -/
theorem abort_absent {s s' s2 : PSt} {x : Nat} {rc : Rec} {es : List Ev} {rs : List Rec} (hi : PInv s)
    (hs : pstep s (.fin x false) = some (s', rc)) (hr : prun s' es = some (s2, rs)) :
    ∀ v ∈ s2.chain, v.xid ≠ x := by
  obtain ⟨hx, rfl, rfl⟩ := step_abort hs
  obtain ⟨y, a, b, hp⟩ := hi.parts
  refine prun_absent (.inl (set_same _ _ _)) ?_ hr
  have hdr : s.chain.dropWhile (fun u => u.xid == x) = a.dropWhile (fun u => u.xid == x) ++ b :=
    hp.drop hi hx (by intro v hv; simpa using hv)
  show ∀ v ∈ s.chain.dropWhile (fun u => u.xid == x), v.xid ≠ x
  rw [hdr]
  intro v hv
  rcases List.mem_append.mp hv with hv | hv
  · by_cases hxy : y = x
    · subst hxy
      rw [drop_all (fun v hv => by simp [hp.above v hv])] at hv
      simp at hv
    · rw [hp.above v (drop_mem hv)]; exact hxy
  · exact hp.notBelow hi hx v hv

/-- The replay up to the image. -/
theorem ahead_run {A : Nat → Prop} {t0 : Nat} {es : List Ev} {s2 s : PSt} {r r' : St} {rs : List Rec}
    (hi : PInv s) (h : Ahead A t0 s2 s r) (hA : ∀ x, (∃ e ∈ es, subtran x e = true) → A x)
    (hT : ∀ x, A x → ∀ e ∈ es, touches x e = false)
    (habs : ∀ x, A x → ∀ v ∈ s2.chain, v.xid ≠ x)
    (hs : prun s es = some (s2, rs)) (hr : replay false r rs = some r') : Sync A t0 s2 r' := by
  induction es generalizing s r rs with
  | nil =>
    obtain ⟨rfl, rfl⟩ := Prod.mk.inj (Option.some.inj hs)
    obtain rfl := Option.some.inj hr
    exact ahead_end hi h habs
  | cons e es ih =>
    obtain ⟨s1, rc, rs', h1, h2, rfl⟩ := prun_cons hs
    simp only [replay] at hr
    split at hr
    · cases hr
    · rename_i r1 hr1
      by_cases hc : changes e = true
      · have hsy := ahead_change hi h
          (fun x hx hAx => by rw [hT x hAx e (by simp)] at hx; cases hx) hc h1 h2 hr1
        obtain ⟨r'', hr'', hsy'⟩ := sync_run (late := false) (pstep_inv hi h1) hsy
          (fun x ⟨f, hf, hx⟩ => hA x ⟨f, by simp [hf], hx⟩) h2
        rw [hr] at hr''
        obtain rfl := Option.some.inj hr''
        exact hsy'
      · obtain ⟨r1', hr1', ha1, _⟩ := ahead_other (late := false) h (fun x hx => hA x ⟨e, by simp, hx⟩)
          habs (by rintro x rfl; exact abort_absent hi h1 h2) (by simpa using hc) h1
        rw [hr1] at hr1'
        obtain rfl := Option.some.inj hr1'
        exact ih (pstep_inv hi h1) ha1 (fun x ⟨f, hf, hx⟩ => hA x ⟨f, by simp [hf], hx⟩)
          (fun x hx f hf => hT x hx f (by simp [hf])) h2 hr

/-! ## When the replay stops at the first change of the row -/

/-- After a change by `y`: `y`'s versions, above them versions of others, who came when `y` had
finished. -/
structure Over (s : PSt) (y : Nat) (R Y b : Chain) : Prop where
  eq : s.chain = R ++ (Y ++ b)
  own : ∀ v ∈ Y, v.xid = y
  others : ∀ v ∈ R, v.xid ≠ y
  live : s.fin y = false → R = [] ∧ Y ≠ []
  old : ∀ v ∈ b, s.fin v.xid = true

theorem over_run {es : List Ev} {s s2 : PSt} {rs : List Rec} {y : Nat} {R Y b : Chain} (hi : PInv s)
    (h : Over s y R Y b) (hy : ∀ e ∈ es, subtran y e = false) (hs : prun s es = some (s2, rs)) :
    ∃ R' Y', s2.chain = R' ++ (Y' ++ b) ∧ (∀ v ∈ Y', v.xid = y) ∧ ∀ v ∈ R', v.xid ≠ y := by
  induction es generalizing s rs R Y with
  | nil =>
    obtain ⟨rfl, _⟩ := Prod.mk.inj (Option.some.inj hs)
    exact ⟨R, Y, h.eq, h.own, h.others⟩
  | cons e es ih =>
    obtain ⟨s1, rc, rs', h1, h2, rfl⟩ := prun_cons hs
    have hy' : ∀ f ∈ es, subtran y f = false := fun f hf => hy f (by simp [hf])
    suffices ∃ R1 Y1, Over s1 y R1 Y1 b by
      obtain ⟨R1, Y1, ho⟩ := this
      exact ih (pstep_inv hi h1) ho hy' h2
    obtain ⟨hf, hmono, hch⟩ := pstep_short h1
    have hold : ∀ v ∈ b, s1.fin v.xid = true := fun v hv => hmono _ (h.old v hv)
    rcases hch with ⟨v, hc, hv, ht⟩ | ⟨p, hc, hpx⟩
    · -- a change
      have hfin1 : s1.fin = s.fin ∧ free s e.xid = true := by
        cases e with
        | see x => simp [touches] at ht
        | sp x => simp [touches] at ht
        | rb x => simp [touches] at ht
        | fin x ok => simp [touches] at ht
        | ins x v => obtain ⟨hp, _⟩ := step_ins h1; exact ⟨hp.fin', hp.free⟩
        | upd x v => obtain ⟨hp, _⟩ := step_upd h1; exact ⟨hp.fin', hp.free⟩
        | del x => obtain ⟨_, _, _, _, hp, _⟩ := step_del h1; exact ⟨hp.fin', hp.free⟩
      by_cases hey : e.xid = y
      · obtain ⟨rfl, hne⟩ := h.live (by rw [← hey]; exact hf)
        refine ⟨[], v :: Y, by rw [hc, h.eq]; rfl, ?_, by simp, fun _ => ⟨rfl, by simp⟩, hold⟩
        intro w hw
        rcases List.mem_cons.mp hw with rfl | hw
        · rw [hv, hey]
        · exact h.own w hw
      · have hyf : s.fin y = true := by
          cases hyf : s.fin y with
          | true => rfl
          | false =>
            obtain ⟨rfl, hne⟩ := h.live hyf
            cases Y with
            | nil => exact absurd rfl hne
            | cons u Y =>
              have hu := h.own u (by simp)
              have hfr := hfin1.2
              simp only [free, h.eq, List.nil_append, List.cons_append, hu, hi.live hyf, Bool.or_false,
                beq_iff_eq] at hfr
              exact absurd hfr.symm hey
        refine ⟨v :: R, Y, by rw [hc, h.eq]; rfl, h.own, ?_, ?_, hold⟩
        · intro w hw
          rcases List.mem_cons.mp hw with rfl | hw
          · rw [hv]; exact hey
          · exact h.others w hw
        · intro hlive
          rw [hfin1.1, hyf] at hlive
          cases hlive
    · -- versions taken off, perhaps none
      have hb : ∀ v ∈ b, p v = false := by
        intro v hv
        cases hpv : p v with
        | false => rfl
        | true =>
          have := h.old v hv
          rw [hpx v hpv, hf] at this
          cases this
      by_cases hey : e.xid = y
      · obtain ⟨rfl, hne⟩ := h.live (by rw [← hey]; exact hf)
        have hc' : s1.chain = Y.dropWhile p ++ b := by
          rw [hc, h.eq, List.nil_append, drop_append hb]
        refine ⟨[], Y.dropWhile p, hc', fun v hv => h.own v (drop_mem hv), by simp, ?_, hold⟩
        intro hlive
        refine ⟨rfl, ?_⟩
        -- `y` still lives, so the event takes nothing off
        have hcs : s1.chain = s.chain := by
          cases e with
          | see x => obtain ⟨_, rfl, _⟩ := step_see h1; rfl
          | sp x => have := hy (.sp x) (by simp); simp [Ev.xid] at hey; simp [subtran, hey] at this
          | rb x => have := hy (.rb x) (by simp); simp [Ev.xid] at hey; simp [subtran, hey] at this
          | fin x ok =>
            simp [Ev.xid] at hey
            subst hey
            cases ok with
            | true =>
              obtain ⟨_, rfl, _⟩ := step_commit h1
              rfl
            | false =>
              obtain ⟨_, rfl, _⟩ := step_abort h1
              simp [set] at hlive
          | ins x v =>
            obtain ⟨hp, _⟩ := step_ins h1
            have hlen := congrArg List.length hc
            rw [hp.chain] at hlen
            have := (List.dropWhile_suffix (l := s.chain) p).length_le
            simp only [List.length_cons] at hlen
            omega
          | upd x v =>
            obtain ⟨hp, _⟩ := step_upd h1
            have hlen := congrArg List.length hc
            rw [hp.chain] at hlen
            have := (List.dropWhile_suffix (l := s.chain) p).length_le
            simp only [List.length_cons] at hlen
            omega
          | del x =>
            obtain ⟨_, _, _, _, hp, _⟩ := step_del h1
            have hlen := congrArg List.length hc
            rw [hp.chain] at hlen
            have := (List.dropWhile_suffix (l := s.chain) p).length_le
            simp only [List.length_cons] at hlen
            omega
        rw [hcs, h.eq, List.nil_append] at hc'
        rw [← List.append_cancel_right hc']
        exact hne
      · have hY : ∀ v ∈ Y ++ b, p v = false := by
          intro v hv
          rcases List.mem_append.mp hv with hv | hv
          · cases hpv : p v with
            | false => rfl
            | true => exact absurd ((hpx v hpv).symm.trans (h.own v hv)) hey
          · exact hb v hv
        refine ⟨R.dropWhile p, Y, ?_, h.own, fun v hv => h.others v (drop_mem hv), ?_, hold⟩
        · rw [hc, h.eq, drop_append hY]
        · intro hlive
          have hyf : s.fin y = false := by
            cases hyf : s.fin y with
            | false => rfl
            | true => rw [hmono y hyf] at hlive; cases hlive
          obtain ⟨rfl, hne⟩ := h.live hyf
          exact ⟨rfl, hne⟩

/-- A conflict at the first change of the row is with the newest version in the image. -/
theorem ahead_conflict {A : Nat → Prop} {t0 : Nat} {s2 s s' : PSt} {r : St} {y : Nat} {v : Ver}
    {es : List Ev} {rs : List Rec} (hi : PInv s) (hi' : PInv s') (h : Ahead A t0 s2 s r)
    (hp : Pushed s s' y v) (hy : ∀ e ∈ es, subtran y e = false)
    (hr : prun s' es = some (s2, rs)) (hc : conflict r y r.chain = none) :
    ∃ u d, s2.chain = u :: d ∧ u.xid ≠ y ∧ r.seen u.xid = true := by
  obtain ⟨x, a, b, hpa⟩ := hi.parts
  have how := hpa.owner hi hp.free
  have hov : Over s' y [] (v :: a) b := by
    refine ⟨by rw [hp.chain, hpa.eq]; rfl, ?_, by simp, fun _ => ⟨rfl, by simp⟩, ?_⟩
    · intro w hw
      rcases List.mem_cons.mp hw with rfl | hw
      · exact hp.xid
      · exact how w hw
    · intro w hw
      rw [hp.fin']
      exact hi.df _ (hpa.below w hw)
  obtain ⟨R, Y, hch, hY, hR⟩ := over_run hi' hov hy hr
  simp only [conflict] at hc
  split at hc
  · cases hc
  · rename_i w hw
    split at hc
    · rename_i hseen
      have hb : ∀ u ∈ b, undone r (img u) = false := by
        intro u hu
        simp [undone, img, h.done, hpa.below u hu]
      cases R with
      | nil =>
        exfalso
        have hmem := List.mem_of_find?_eq_some hw
        have hne := List.find?_some hw
        simp only [bne_iff_ne, ne_eq] at hne
        rw [h.chain, hch, List.nil_append, List.map_append] at hmem
        have hsub : ∀ l m : Chain, (∀ u ∈ m, undone r u = false) →
            ∀ u ∈ (l ++ m).takeWhile (undone r), u ∈ l := by
          intro l m hm
          induction l with
          | nil =>
            intro u hu
            cases m with
            | nil => simp at hu
            | cons k m => simp [hm k (by simp)] at hu
          | cons k l ih =>
            intro u hu
            rw [List.cons_append, List.takeWhile_cons] at hu
            split at hu
            · rcases List.mem_cons.mp hu with rfl | hu
              · simp
              · exact List.mem_cons_of_mem _ (ih u hu)
            · simp at hu
        have := hsub (Y.map img) (b.map img) (by
          intro u hu
          obtain ⟨k, hk, rfl⟩ := List.mem_map.mp hu
          exact hb k hk) w hmem
        obtain ⟨u, hu, rfl⟩ := List.mem_map.mp this
        exact hne (hY u hu)
      | cons u R =>
        refine ⟨u, R ++ (Y ++ b), by rw [hch]; rfl, hR u (by simp), ?_⟩
        have hu := hR u (by simp)
        rw [h.chain, hch, List.cons_append, List.map_cons, List.takeWhile_cons] at hw
        split at hw
        · rw [List.find?_cons] at hw
          have : ((img u).xid != y) = true := by simpa [img] using hu
          rw [this] at hw
          simp only [Option.some.injEq] at hw
          subst hw
          exact hseen
        · simp at hw
    · cases hc

/-- The replay up to the image ends, or the newest version in the image is of a transaction already
met when the first change of the row, by another one, is replayed. -/
theorem ahead_ends {A : Nat → Prop} {t0 : Nat} {es pre : List Ev} {s2 s : PSt} {r : St} {rs : List Rec}
    (hi : PInv s) (h : Ahead A t0 s2 s r) (hA : ∀ x, (∃ e ∈ es, subtran x e = true) → A x)
    (hT : ∀ x, A x → ∀ e ∈ es, touches x e = false)
    (habs : ∀ x, A x → ∀ v ∈ s2.chain, v.xid ≠ x)
    (hpre : ∀ g ∈ pre, ∀ y, touches y g = false)
    (hseen : ∀ x, r.seen x = true → ∃ g ∈ pre, g.xid = x)
    (hs : prun s es = some (s2, rs))
    (hb : ∀ u d, s2.chain = u :: d → ¬ EarlyBird (pre ++ es) u.xid) :
    ∃ r', replay false r rs = some r' := by
  induction es generalizing s r rs pre with
  | nil =>
    obtain ⟨rfl, rfl⟩ := Prod.mk.inj (Option.some.inj hs)
    exact ⟨r, rfl⟩
  | cons e es ih =>
    obtain ⟨s1, rc, rs', h1, h2, rfl⟩ := prun_cons hs
    by_cases hc : changes e = true
    · have hnA : ∀ x, touches x e = true → ¬ A x :=
        fun x hx hAx => by rw [hT x hAx e (by simp)] at hx; cases hx
      have hpu : ∃ y v, Pushed s s1 y v ∧ touches y e = true ∧
          (conflict r y r.chain ≠ none → ∃ r1, rstep false r rc = some r1) := by
        cases e with
        | see x => simp [changes, touches] at hc
        | sp x => simp [changes, touches] at hc
        | rb x => simp [changes, touches] at hc
        | fin x ok => simp [changes, touches] at hc
        | ins x v =>
          obtain ⟨hp, rfl, _⟩ := step_ins h1
          refine ⟨x, _, hp, by simp [touches], fun hne => ?_⟩
          cases hcf : conflict r x r.chain with
          | none => exact absurd hcf hne
          | some c => simp [rstep, hcf]
        | upd x v =>
          obtain ⟨hp, rfl, _⟩ := step_upd h1
          refine ⟨x, _, hp, by simp [touches], fun hne => ?_⟩
          cases hcf : conflict r x r.chain with
          | none => exact absurd hcf hne
          | some c => simp [rstep, hcf]
        | del x =>
          obtain ⟨u, d, _, _, hp, rfl⟩ := step_del h1
          refine ⟨x, _, hp, by simp [touches], fun hne => ?_⟩
          cases hcf : conflict r x r.chain with
          | none => exact absurd hcf hne
          | some c => simp [rstep, hcf]
      obtain ⟨y, v, hp, hty, hok⟩ := hpu
      have hsub : ∀ f ∈ es, subtran y f = false := by
        intro f hf
        cases hsf : subtran y f with
        | false => rfl
        | true => exact absurd (hA y ⟨f, by simp [hf], hsf⟩) (hnA y hty)
      by_cases hcf : conflict r y r.chain = none
      · obtain ⟨u, d, hch, huy, hus⟩ := ahead_conflict hi (pstep_inv hi h1) h hp hsub h2 hcf
        obtain ⟨g, hg, hgx⟩ := hseen _ hus
        exact absurd ⟨pre, es, y, e, rfl, hty, hpre, huy, g, hg, hgx⟩ (hb u d hch)
      · obtain ⟨r1, hr1⟩ := hok hcf
        have hsy := ahead_change hi h hnA hc h1 h2 hr1
        obtain ⟨r', hr', _⟩ := sync_run (late := false) (pstep_inv hi h1) hsy
          (fun x ⟨f, hf, hx⟩ => hA x ⟨f, by simp [hf], hx⟩) h2
        exact ⟨r', by simp only [replay, hr1, hr']⟩
    · have hcf : changes e = false := by simpa using hc
      obtain ⟨r1, hr1, ha1, hse⟩ := ahead_other (late := false) h (fun x hx => hA x ⟨e, by simp, hx⟩)
        habs (by rintro x rfl; exact abort_absent hi h1 h2) hcf h1
      obtain ⟨r', hr'⟩ := ih (pre := pre ++ [e]) (pstep_inv hi h1) ha1
        (fun x ⟨f, hf, hx⟩ => hA x ⟨f, by simp [hf], hx⟩)
        (fun x hx f hf => hT x hx f (by simp [hf]))
        (by
          intro g hg z
          rcases List.mem_append.mp hg with hg | hg
          · exact hpre g hg z
          · simp only [List.mem_singleton] at hg
            subst hg
            cases htz : touches z g with
            | false => rfl
            | true => rw [(changes_iff htz).1] at hcf; cases hcf)
        (by
          intro x hx
          rw [hse] at hx
          by_cases hxe : x = e.xid
          · exact ⟨e, by simp, hxe.symm⟩
          · rw [set_other _ _ hxe] at hx
            obtain ⟨g, hg, hgx⟩ := hseen x hx
            exact ⟨g, by simp [hg], hgx⟩)
        h2 (by simpa using hb)
      exact ⟨r', by simp only [replay, hr1, hr']⟩

end Verif.Image
