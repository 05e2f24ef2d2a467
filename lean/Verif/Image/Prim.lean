import Verif.Image.Chain
/-!
# The primary server
-/

namespace Verif.Image

/-- The versions on top belong to one transaction in progress; those below are committed. -/
structure Parts (s : PSt) (x : Nat) (a b : Chain) : Prop where
  eq : s.chain = a ++ b
  below : ∀ v ∈ b, s.done v.xid = true
  above : ∀ v ∈ a, v.xid = x
  open' : a ≠ [] → s.fin x = false
  vers : a.Pairwise (fun u w => w.ver ≤ u.ver)

structure PInv (s : PSt) : Prop where
  df : ∀ x, s.done x = true → s.fin x = true
  parts : ∃ x a b, Parts s x a b

theorem PInv.live {s : PSt} (h : PInv s) {x : Nat} (hx : s.fin x = false) : s.done x = false := by
  cases hd : s.done x with
  | false => rfl
  | true => rw [h.df x hd] at hx; cases hx

theorem pinit_inv (v : Option Nat) : PInv (pinit v) := by
  refine ⟨fun x h => h, 0, [], (pinit v).chain, rfl, ?_, by simp, by simp, List.Pairwise.nil⟩
  intro u hu
  cases v with
  | none => simp [pinit] at hu
  | some a => simp [pinit] at hu; subst hu; rfl

/-- A change of the row. -/
structure Pushed (s s' : PSt) (x : Nat) (v : Ver) : Prop where
  fin : s.fin x = false
  free : free s x = true
  chain : s'.chain = v :: s.chain
  xid : v.xid = x
  time : v.time = s.now
  img : v.img = false
  ver : ∀ u c, s.chain = u :: c → u.xid = x → u.ver ≤ v.ver
  done' : s'.done = s.done
  fin' : s'.fin = s.fin
  sps' : s'.sps = s.sps
  now' : s'.now = s.now + 1

theorem nextVer_le {c : Chain} {x : Nat} : ∀ u d, c = u :: d → u.xid = x → u.ver ≤ nextVer c x := by
  rintro u d rfl hu
  simp [nextVer, hu]

theorem step_ins {s s' : PSt} {x v : Nat} {rc : Rec} (h : pstep s (.ins x v) = some (s', rc)) :
    Pushed s s' x ⟨x, nextVer s.chain x, some v, s.now, false⟩ ∧ rc = .ins x v (nextVer s.chain x) ∧
      top s.chain = none := by
  simp only [pstep] at h
  split at h
  · rename_i hc
    obtain ⟨rfl, rfl⟩ := Prod.mk.inj (Option.some.inj h)
    exact ⟨⟨hc.1, hc.2.1, rfl, rfl, rfl, rfl, nextVer_le, rfl, rfl, rfl, rfl⟩, rfl, hc.2.2⟩
  · cases h

theorem step_upd {s s' : PSt} {x v : Nat} {rc : Rec} (h : pstep s (.upd x v) = some (s', rc)) :
    Pushed s s' x ⟨x, nextVer s.chain x, some v, s.now, false⟩ ∧ rc = .upd x v (nextVer s.chain x) ∧
      top s.chain ≠ none := by
  simp only [pstep] at h
  split at h
  · rename_i hc
    obtain ⟨rfl, rfl⟩ := Prod.mk.inj (Option.some.inj h)
    exact ⟨⟨hc.1, hc.2.1, rfl, rfl, rfl, rfl, nextVer_le, rfl, rfl, rfl, rfl⟩, rfl, hc.2.2⟩
  · cases h

theorem step_del {s s' : PSt} {x : Nat} {rc : Rec} (h : pstep s (.del x) = some (s', rc)) :
    ∃ u c, s.chain = u :: c ∧ u.val ≠ none ∧ Pushed s s' x ⟨x, u.ver, none, s.now, false⟩ ∧
      rc = .del x u.ver := by
  simp only [pstep] at h
  split at h
  · cases h
  · rename_i u c hc
    split at h
    · rename_i hk
      obtain ⟨rfl, rfl⟩ := Prod.mk.inj (Option.some.inj h)
      refine ⟨u, c, hc, hk.2.2, ⟨hk.1, hk.2.1, by simp [hc], rfl, rfl, rfl, ?_, rfl, rfl, rfl, rfl⟩, rfl⟩
      intro w d hw _
      rw [hc] at hw
      obtain ⟨rfl, _⟩ := List.cons.inj hw
      exact Nat.le_refl _
    · cases h

theorem step_see {s s' : PSt} {x : Nat} {rc : Rec} (h : pstep s (.see x) = some (s', rc)) :
    s.fin x = false ∧ s' = { s with now := s.now + 1 } ∧ rc = .see x := by
  simp only [pstep] at h
  split at h
  · cases h
  · rename_i hc
    obtain ⟨rfl, rfl⟩ := Prod.mk.inj (Option.some.inj h)
    exact ⟨by simpa using hc, rfl, rfl⟩

theorem step_sp {s s' : PSt} {x : Nat} {rc : Rec} (h : pstep s (.sp x) = some (s', rc)) :
    s.fin x = false ∧
      s' = { s with now := s.now + 1, sps := set s.sps x ((parent (s.sps x), s.now) :: s.sps x) } ∧
      rc = .sp x (parent (s.sps x)) := by
  simp only [pstep] at h
  split at h
  · cases h
  · rename_i hc
    obtain ⟨rfl, rfl⟩ := Prod.mk.inj (Option.some.inj h)
    exact ⟨by simpa using hc, rfl, rfl⟩

theorem step_rb {s s' : PSt} {x : Nat} {rc : Rec} (h : pstep s (.rb x) = some (s', rc)) :
    s.fin x = false ∧ ∃ id t rest, s.sps x = (id, t) :: rest ∧
      s' = { s with now := s.now + 1,
                    chain := s.chain.dropWhile (fun u => u.xid == x && decide (t ≤ u.time)),
                    sps := set s.sps x rest } ∧
      rc = .rb x id := by
  simp only [pstep] at h
  split at h
  · cases h
  · rename_i id t rest hs
    split at h
    · cases h
    · rename_i hc
      obtain ⟨rfl, rfl⟩ := Prod.mk.inj (Option.some.inj h)
      exact ⟨by simpa using hc, id, t, rest, hs, rfl, rfl⟩

theorem step_commit {s s' : PSt} {x : Nat} {rc : Rec} (h : pstep s (.fin x true) = some (s', rc)) :
    s.fin x = false ∧
      s' = { s with now := s.now + 1, done := set s.done x true, fin := set s.fin x true } ∧
      rc = .fin x true := by
  simp only [pstep] at h
  split at h
  · cases h
  · rename_i hc
    obtain ⟨rfl, rfl⟩ := Prod.mk.inj (Option.some.inj h)
    exact ⟨by simpa using hc, rfl, rfl⟩

theorem step_abort {s s' : PSt} {x : Nat} {rc : Rec} (h : pstep s (.fin x false) = some (s', rc)) :
    s.fin x = false ∧
      s' = { s with now := s.now + 1, chain := s.chain.dropWhile (fun u => u.xid == x),
                    fin := set s.fin x true } ∧
      rc = .fin x false := by
  simp only [pstep] at h
  split at h
  · cases h
  · rename_i hc
    obtain ⟨rfl, rfl⟩ := Prod.mk.inj (Option.some.inj h)
    exact ⟨by simpa using hc, rfl, rfl⟩

/-- The versions on top are `x`'s when `x` may change the row. -/
theorem Parts.owner {s : PSt} (hi : PInv s) {x y : Nat} {a b : Chain} (hp : Parts s y a b)
    (hf : free s x = true) : ∀ v ∈ a, v.xid = x := by
  cases a with
  | nil => simp
  | cons u a =>
    have hu := hp.above u (by simp)
    have hd := hi.live (hp.open' (by simp))
    have : u.xid = x := by
      simp only [free, hp.eq, List.cons_append, Bool.or_eq_true, beq_iff_eq] at hf
      rcases hf with hf | hf
      · exact hf
      · rw [hu, hd] at hf; cases hf
    intro v hv
    rw [hp.above v hv, ← hu, this]

theorem Parts.notBelow {s : PSt} (hi : PInv s) {x y : Nat} {a b : Chain} (hp : Parts s y a b)
    (hx : s.fin x = false) : ∀ v ∈ b, v.xid ≠ x := by
  intro v hv he
  have := hp.below v hv
  rw [he, hi.live hx] at this
  cases this

theorem Parts.push {s s' : PSt} (hi : PInv s) {x y : Nat} {v : Ver} {a b : Chain}
    (hp : Parts s y a b) (h : Pushed s s' x v) : Parts s' x (v :: a) b := by
  have ho := hp.owner hi h.free
  refine ⟨by rw [h.chain, hp.eq]; rfl, by rw [h.done']; exact hp.below, ?_, ?_, ?_⟩
  · intro w hw
    rcases List.mem_cons.mp hw with rfl | hw
    · exact h.xid
    · exact ho w hw
  · intro _
    rw [h.fin']; exact h.fin
  · refine List.Pairwise.cons ?_ hp.vers
    intro w hw
    cases a with
    | nil => simp at hw
    | cons u a =>
      have hu := h.ver u (a ++ b) (by rw [hp.eq]; rfl) (ho u (by simp))
      rcases List.mem_cons.mp hw with rfl | hw
      · exact hu
      · exact Nat.le_trans (List.rel_of_pairwise_cons hp.vers hw) hu

theorem Parts.drop {s : PSt} (hi : PInv s) {x y : Nat} {a b : Chain} (hp : Parts s y a b)
    {p : Ver → Bool} (hx : s.fin x = false) (ho : ∀ v, p v = true → v.xid = x) :
    s.chain.dropWhile p = a.dropWhile p ++ b := by
  rw [hp.eq]
  refine drop_append ?_
  intro v hv
  cases h : p v with
  | false => rfl
  | true => exact absurd (ho v h) (hp.notBelow hi hx v hv)

theorem pstep_inv {s s' : PSt} {e : Ev} {rc : Rec} (hi : PInv s) (h : pstep s e = some (s', rc)) :
    PInv s' := by
  obtain ⟨y, a, b, hp⟩ := hi.parts
  have push : ∀ {x v}, Pushed s s' x v → PInv s' := by
    intro x v hv
    exact ⟨by rw [hv.done', hv.fin']; exact hi.df, x, _, _, hp.push hi hv⟩
  cases e with
  | see x =>
    obtain ⟨_, rfl, _⟩ := step_see h
    exact ⟨hi.df, y, a, b, hp.eq, hp.below, hp.above, hp.open', hp.vers⟩
  | ins x v => exact push (step_ins h).1
  | upd x v => exact push (step_upd h).1
  | del x =>
    obtain ⟨u, c, _, _, hv, _⟩ := step_del h
    exact push hv
  | sp x =>
    obtain ⟨_, rfl, _⟩ := step_sp h
    exact ⟨hi.df, y, a, b, hp.eq, hp.below, hp.above, hp.open', hp.vers⟩
  | rb x =>
    obtain ⟨hx, id, t, rest, _, rfl, _⟩ := step_rb h
    refine ⟨hi.df, y, a.dropWhile (fun u => u.xid == x && decide (t ≤ u.time)), b, ?_, hp.below,
      fun v hv => hp.above v (drop_mem hv), ?_, ?_⟩
    · exact hp.drop hi hx (by intro v hv; simp at hv; exact hv.1)
    · intro hne
      refine hp.open' ?_
      rintro rfl
      exact hne rfl
    · exact List.Pairwise.sublist (List.dropWhile_suffix _).sublist hp.vers
  | fin x ok =>
    cases ok with
    | true =>
      obtain ⟨hx, rfl, _⟩ := step_commit h
      have hdf : ∀ z, set s.done x true z = true → set s.fin x true z = true := by
        intro z hz
        by_cases hzx : z = x
        · subst hzx; exact set_same _ _ _
        · rw [set_other _ _ hzx] at hz ⊢; exact hi.df z hz
      have hmono : ∀ z, s.done z = true → set s.done x true z = true := by
        intro z hz
        by_cases hzx : z = x
        · subst hzx; exact set_same _ _ _
        · rw [set_other _ _ hzx]; exact hz
      by_cases hyx : y = x
      · subst hyx
        refine ⟨hdf, y, [], a ++ b, hp.eq, ?_, by simp, by simp, List.Pairwise.nil⟩
        intro v hv
        rcases List.mem_append.mp hv with hv | hv
        · show set s.done y true v.xid = true
          rw [hp.above v hv]; exact set_same _ _ _
        · exact hmono _ (hp.below v hv)
      · refine ⟨hdf, y, a, b, hp.eq, fun v hv => hmono _ (hp.below v hv), hp.above, ?_, hp.vers⟩
        intro hne
        show set s.fin x true y = false
        rw [set_other _ _ hyx]; exact hp.open' hne
    | false =>
      obtain ⟨hx, rfl, _⟩ := step_abort h
      have hdr := hp.drop hi (p := fun u => u.xid == x) hx (by intro v hv; simpa using hv)
      have hdf : ∀ z, s.done z = true → set s.fin x true z = true := by
        intro z hz
        by_cases hzx : z = x
        · subst hzx; exact set_same _ _ _
        · rw [set_other _ _ hzx]; exact hi.df z hz
      refine ⟨hdf, y, a.dropWhile (fun u => u.xid == x), b, hdr, hp.below,
        fun v hv => hp.above v (drop_mem hv), ?_,
        List.Pairwise.sublist (List.dropWhile_suffix _).sublist hp.vers⟩
      intro hne
      show set s.fin x true y = false
      by_cases hyx : y = x
      · subst hyx
        exact absurd (drop_all (fun v hv => by simp [hp.above v hv])) hne
      · rw [set_other _ _ hyx]
        refine hp.open' ?_
        rintro rfl
        exact hne rfl

theorem prun_inv {es : List Ev} {s s' : PSt} {rs : List Rec} (hi : PInv s)
    (h : prun s es = some (s', rs)) : PInv s' := by
  induction es generalizing s rs with
  | nil =>
    obtain ⟨rfl, _⟩ := Prod.mk.inj (Option.some.inj h)
    exact hi
  | cons e es ih =>
    simp only [prun] at h
    split at h
    · cases h
    · rename_i s1 r hs
      split at h
      · cases h
      · rename_i s2 rs2 hr
        obtain ⟨rfl, rfl⟩ := Prod.mk.inj (Option.some.inj h)
        exact ih (pstep_inv hi hs) hr

/-- A run of one event and more. -/
theorem prun_cons {e : Ev} {es : List Ev} {s s' : PSt} {rs : List Rec}
    (h : prun s (e :: es) = some (s', rs)) :
    ∃ s1 r rs', pstep s e = some (s1, r) ∧ prun s1 es = some (s', rs') ∧ rs = r :: rs' := by
  simp only [prun] at h
  split at h
  · cases h
  · rename_i s1 r hs
    split at h
    · cases h
    · rename_i s2 rs2 hr
      obtain ⟨rfl, rfl⟩ := Prod.mk.inj (Option.some.inj h)
      exact ⟨s1, r, rs2, hs, hr, rfl⟩

/-- What a step does, in short: nothing to the chain, a version of a transaction in progress on top,
or such versions off the top; and nobody becomes unfinished. -/
theorem pstep_short {s s' : PSt} {e : Ev} {rc : Rec} (h : pstep s e = some (s', rc)) :
    s.fin e.xid = false ∧ (∀ z, s.fin z = true → s'.fin z = true) ∧
      ((∃ v, s'.chain = v :: s.chain ∧ v.xid = e.xid ∧ touches e.xid e = true) ∨
       ∃ p : Ver → Bool, s'.chain = s.chain.dropWhile p ∧ ∀ v, p v = true → v.xid = e.xid) := by
  have keep : s.chain = s.chain.dropWhile (fun _ => false) := (drop_none (by simp)).symm
  have grow : ∀ x z, s.fin z = true → set s.fin x true z = true := by
    intro x z hz
    by_cases hzx : z = x
    · subst hzx; exact set_same _ _ _
    · rw [set_other _ _ hzx]; exact hz
  cases e with
  | see x =>
    obtain ⟨hx, rfl, _⟩ := step_see h
    exact ⟨hx, fun _ hz => hz, .inr ⟨_, keep, by simp⟩⟩
  | ins x v =>
    have hv := (step_ins h).1
    exact ⟨hv.fin, by rw [hv.fin']; exact fun _ hz => hz,
      .inl ⟨_, hv.chain, hv.xid, by simp [touches, Ev.xid]⟩⟩
  | upd x v =>
    have hv := (step_upd h).1
    exact ⟨hv.fin, by rw [hv.fin']; exact fun _ hz => hz,
      .inl ⟨_, hv.chain, hv.xid, by simp [touches, Ev.xid]⟩⟩
  | del x =>
    obtain ⟨u, c, _, _, hv, _⟩ := step_del h
    exact ⟨hv.fin, by rw [hv.fin']; exact fun _ hz => hz,
      .inl ⟨_, hv.chain, hv.xid, by simp [touches, Ev.xid]⟩⟩
  | sp x =>
    obtain ⟨hx, rfl, _⟩ := step_sp h
    exact ⟨hx, fun _ hz => hz, .inr ⟨_, keep, by simp⟩⟩
  | rb x =>
    obtain ⟨hx, id, t, rest, _, rfl, _⟩ := step_rb h
    exact ⟨hx, fun _ hz => hz, .inr ⟨_, rfl, by intro v hv; simp at hv; exact hv.1⟩⟩
  | fin x ok =>
    cases ok with
    | true =>
      obtain ⟨hx, rfl, _⟩ := step_commit h
      exact ⟨hx, grow x, .inr ⟨_, keep, by simp⟩⟩
    | false =>
      obtain ⟨hx, rfl, _⟩ := step_abort h
      exact ⟨hx, grow x, .inr ⟨_, rfl, by intro v hv; simpa [Ev.xid] using hv⟩⟩

/-- What was committed at some time stays at the bottom of the chain. -/
theorem prun_bottom {es : List Ev} {s s' : PSt} {rs : List Rec} {P S : Chain} {done : Nat → Bool}
    (hdf : ∀ x, done x = true → s.fin x = true)
    (hc : s.chain = P ++ S) (hP : ∀ v ∈ P, done v.xid = false) (hS : ∀ v ∈ S, done v.xid = true)
    (h : prun s es = some (s', rs)) :
    ∃ P', s'.chain = P' ++ S ∧ ∀ v ∈ P', done v.xid = false := by
  induction es generalizing s rs P with
  | nil =>
    obtain ⟨rfl, _⟩ := Prod.mk.inj (Option.some.inj h)
    exact ⟨P, hc, hP⟩
  | cons e es ih =>
    obtain ⟨s1, r, rs', hs, hr, _⟩ := prun_cons h
    obtain ⟨hx, hm, hk⟩ := pstep_short hs
    have hnd : done e.xid = false := by
      cases hd : done e.xid with
      | false => rfl
      | true => rw [hdf _ hd] at hx; cases hx
    have hdf' : ∀ x, done x = true → s1.fin x = true := fun x hd => hm x (hdf x hd)
    rcases hk with ⟨v, hv, hvx, _⟩ | ⟨p, hp, ho⟩
    · refine ih hdf' (P := v :: P) (by rw [hv, hc]; rfl) ?_ hr
      intro w hw
      rcases List.mem_cons.mp hw with rfl | hw
      · rw [hvx]; exact hnd
      · exact hP w hw
    · refine ih hdf' (P := P.dropWhile p) ?_ (fun w hw => hP w (drop_mem hw)) hr
      rw [hp, hc]
      refine drop_append ?_
      intro w hw
      cases hpw : p w with
      | false => rfl
      | true =>
        have := hS w hw
        rw [ho w hpw, hnd] at this
        cases this

/-- A transaction without versions, when it has finished or never changes the row again, stays
without. -/
theorem prun_absent {es : List Ev} {s s' : PSt} {rs : List Rec} {x : Nat}
    (hx : s.fin x = true ∨ ∀ e ∈ es, touches x e = false)
    (hc : ∀ v ∈ s.chain, v.xid ≠ x) (h : prun s es = some (s', rs)) :
    ∀ v ∈ s'.chain, v.xid ≠ x := by
  induction es generalizing s rs with
  | nil =>
    obtain ⟨rfl, _⟩ := Prod.mk.inj (Option.some.inj h)
    exact hc
  | cons e es ih =>
    obtain ⟨s1, r, rs', hs, hr, _⟩ := prun_cons h
    obtain ⟨hl, hm, hk⟩ := pstep_short hs
    have hx' : s1.fin x = true ∨ ∀ e ∈ es, touches x e = false := by
      rcases hx with hx | hx
      · exact .inl (hm x hx)
      · exact .inr (fun e he => hx e (by simp [he]))
    refine ih hx' ?_ hr
    rcases hk with ⟨v, hv, hvx, ht⟩ | ⟨p, hp, _⟩
    · intro w hw
      rw [hv] at hw
      rcases List.mem_cons.mp hw with rfl | hw
      · rw [hvx]
        intro he
        rcases hx with hx | hx
        · rw [he, hx] at hl; cases hl
        · rw [he, hx e (by simp)] at ht; cases ht
      · exact hc w hw
    · intro w hw
      rw [hp] at hw
      exact hc w (drop_mem hw)

end Verif.Image
