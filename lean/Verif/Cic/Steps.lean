import Verif.Cic.Inv

/-! # The invariant is kept by every step -/

namespace Verif.Cic

theorem Inv.get_V {nf : Prop} {ix : Ix} {s : St} {V : Key → Option Row} (h : Inv nf ix s V) {b : Nat} {p : Key}
    (hp : s.pend b = none) (hfree : ∀ b', b' ≠ b → ∀ it ∈ s.stk b', it.p ≠ p) : V p = get ix s.tab p := by
  apply h.rest
  intro b' it rest hs hit
  by_cases hb : b' = b
  · rw [hb]; exact hp
  · exact absurd hit (hfree b' hb it (by rw [hs]; simp))

theorem Inv.get_head {nf : Prop} {ix : Ix} {s : St} {V : Key → Option Row} (h : Inv nf ix s V) {b : Nat} {it rest}
    (hp : s.pend b = none) (hs : s.stk b = it :: rest) : V it.p = get ix s.tab it.p := by
  apply h.get_V hp
  intro b' hb it' hit' he
  exact hb (h.lock b' b it' it hit' (by rw [hs]; simp) he)

/-- A flying change is not touched by a change of another row. -/
theorem Flying.frame {ix : Ix} {s s' : St} {b it pd} (h : Flying ix s b it pd)
    (ht : get ix s'.tab it.p = get ix s.tab it.p) (hf : ∀ e ∈ s.file b, e ∈ s'.file b) :
    Flying ix s' b it pd := by
  cases pd with
  | back =>
    intro r hr
    rw [ht] at hr
    obtain ⟨e, he, h'⟩ := h r hr
    exact ⟨e, hf e he, h'⟩
  | cap op r =>
    cases op
    · exact ⟨h.1, ht.trans h.2⟩
    · exact ⟨h.1, ht.trans h.2⟩
    · exact h
    · exact h

theorem inv_modify {nf : Prop} {ix : Ix} {s : St} {V : Key → Option Row} (h : Inv nf ix s V) {b : Nat} {p : Key}
    {old new : Option Row} {pd : Pend} (hb : b < ix.n) (hp : s.pend b = none) (hg : get ix s.tab p = old)
    (hfree : ∀ b', b' ≠ b → ∀ it ∈ s.stk b', it.p ≠ p)
    (hpd : (old = none ∧ ∃ r, new = some r ∧ ix.pkOf r = p ∧ pd = .cap .ins r) ∨
      (∃ r, old = some r ∧ new = none ∧ pd = .cap .del r)) :
    Inv nf ix (modify ix s b p old new (some pd)) V := by
  have hVp : V p = old := (h.get_V hp hfree).trans hg
  have hnew : ∀ r, new = some r → ix.pkOf r = p := by
    intro r hr
    rcases hpd with ⟨_, r', h1, h2, _⟩ | ⟨_, _, h1, _⟩
    · rw [h1] at hr; cases hr; exact h2
    · rw [h1] at hr; cases hr
  have hold : ∀ r, old = some r → ix.pkOf r = p := fun r hr => get_pk (hg.trans hr)
  have mem : ∀ b' it, it ∈ (modify ix s b p old new (some pd)).stk b' →
      (b' = b ∧ it = ⟨p, old, s.pos, none⟩) ∨ it ∈ s.stk b' := by
    intro b' it hit
    simp only [modify] at hit
    by_cases hbb : b' = b
    · subst hbb
      rw [set_same] at hit
      rcases List.mem_cons.1 hit with hit | hit
      · exact .inl ⟨rfl, hit⟩
      · exact .inr hit
    · rw [set_other _ _ hbb] at hit
      exact .inr hit
  constructor
  · intro b' hb'
    have hbb : b' ≠ b := by omega
    simp only [modify, set_other _ _ hbb]
    exact h.out b' hb'
  · exact h.uniq.put p new hnew
  · exact h.wf
  · intro b' it hit r hr
    rcases mem b' it hit with ⟨_, rfl⟩ | hit
    · exact hold r hr
    · exact h.old b' it hit r hr
  · intro b1 b2 i1 i2 h1 h2 he
    rcases mem b1 i1 h1 with ⟨rfl, rfl⟩ | h1' <;> rcases mem b2 i2 h2 with ⟨rfl, rfl⟩ | h2'
    · rfl
    · by_cases hbb : b2 = b1
      · exact hbb.symm
      · exact absurd he.symm (hfree b2 hbb i2 h2')
    · by_cases hbb : b1 = b2
      · exact hbb
      · exact absurd he (hfree b1 hbb i1 h1')
    · exact h.lock b1 b2 i1 i2 h1' h2' he
  · intro b' pd' hpd'
    by_cases hbb : b' = b
    · subst hbb
      simp only [modify, set_same] at hpd' ⊢
      cases hpd'
      refine ⟨⟨p, old, s.pos, none⟩, s.stk b', rfl, hVp, ?_⟩
      have hgp := get_put_self ix s.tab p new hnew
      rcases hpd with ⟨h1, r, h2, _, h3⟩ | ⟨r, h1, h2, h3⟩
      · subst h3; exact ⟨h1, hgp.trans h2⟩
      · subst h3; exact ⟨h1, hgp.trans h2⟩
    · simp only [modify, set_other _ _ hbb] at hpd' ⊢
      obtain ⟨it, rest, h1, h2, h3⟩ := h.fly b' pd' hpd'
      refine ⟨it, rest, h1, h2, h3.frame ?_ (fun e he => he)⟩
      exact get_put_ne ix s.tab new hnew (hfree b' hbb it (by rw [h1]; simp))
  · intro q hq
    have hqp : q ≠ p := by
      intro e
      have := hq b ⟨p, old, s.pos, none⟩ (s.stk b) (by simp [modify, set_same]) e.symm
      simp [modify, set_same] at this
    simp only [modify]
    rw [get_put_ne ix s.tab new hnew hqp]
    apply h.rest
    intro b' it rest hs hit
    by_cases hbb : b' = b
    · rw [hbb]; exact hp
    · have := hq b' it rest (by simp only [modify, set_other _ _ hbb]; exact hs) hit
      simpa only [modify, set_other _ _ hbb] using this
  · intro b'
    by_cases hbb : b' = b
    · subst hbb
      have := h.chain b'
      simp only [eff, hp] at this
      simpa only [eff, modify, set_same, List.tail_cons] using this
    · have := h.chain b'
      simpa only [eff, modify, set_other _ _ hbb] using this
  · intro b'
    refine ⟨fun e he => Nat.lt_succ_of_lt ((h.bnd b').1 e he), ?_⟩
    intro it hit
    rcases mem b' it hit with ⟨_, rfl⟩ | hit
    · exact Nat.lt_succ_self _
    · exact Nat.lt_succ_of_lt ((h.bnd b').2 it hit)
  · intro b' it hit A u e v hA hfile hof e' he'
    have hfile' : s.file A = u ++ e :: v := hfile
    rcases mem b' it hit with ⟨_, rfl⟩ | hit
    · refine (h.bnd A).1 e' ?_
      rw [hfile']
      simp at he' ⊢
      rcases he' with he' | he'
      · exact .inl he'
      · exact .inr (.inl he')
    · exact h.order b' it hit A u e v hA hfile' hof e' he'
  · intro k
    refine (h.keys k).frame rfl rfl Iff.rfl ?_
    intro _ b' r hr _
    have hbb : b' ≠ b := by
      intro e; rw [e, hp] at hr; cases hr
    simp only [modify, set_other _ _ hbb]
    exact hr

/-- An update which leaves the key as it is. -/
theorem inv_upd {nf : Prop} {ix : Ix} {s : St} {V : Key → Option Row} (h : Inv nf ix s V) {b : Nat} {o r : Row}
    (hb : b < ix.n) (hp : s.pend b = none) (hg : get ix s.tab (ix.pkOf r) = some o)
    (hfree : ∀ b', b' ≠ b → ∀ it ∈ s.stk b', it.p ≠ ix.pkOf r) (hk : ix.key o = ix.key r) :
    Inv nf ix (modify ix s b (ix.pkOf r) (some o) (some r) none) (setK V (ix.pkOf r) (some r)) := by
  have hVp : V (ix.pkOf r) = some o := (h.get_V hp hfree).trans hg
  generalize hpp : ix.pkOf r = p at *
  have hnew : ∀ r', some r = some r' → ix.pkOf r' = p := by intro r' h; cases h; exact hpp
  have mem : ∀ b' it, it ∈ (modify ix s b p (some o) (some r) none).stk b' →
      (b' = b ∧ it = ⟨p, some o, s.pos, none⟩) ∨ it ∈ s.stk b' := by
    intro b' it hit
    simp only [modify] at hit
    by_cases hbb : b' = b
    · subst hbb
      rw [set_same] at hit
      rcases List.mem_cons.1 hit with hit | hit
      · exact .inl ⟨rfl, hit⟩
      · exact .inr hit
    · rw [set_other _ _ hbb] at hit
      exact .inr hit
  have hpend : ∀ b', (modify ix s b p (some o) (some r) none).pend b' = s.pend b' := by
    intro b'
    simp only [modify]
    by_cases hbb : b' = b
    · rw [hbb, set_same, hp]
    · rw [set_other _ _ hbb]
  constructor
  · intro b' hb'
    have hbb : b' ≠ b := by omega
    simp only [modify, set_other _ _ hbb]
    exact h.out b' hb'
  · exact h.uniq.put p (some r) hnew
  · intro q r' hq
    simp only [setK] at hq
    split at hq
    · next e => cases hq; rw [e]; exact hpp
    · exact h.wf q r' hq
  · intro b' it hit r' hr
    rcases mem b' it hit with ⟨_, rfl⟩ | hit
    · simp only [Option.some.injEq] at hr; subst hr; exact get_pk hg
    · exact h.old b' it hit r' hr
  · intro b1 b2 i1 i2 h1 h2 he
    rcases mem b1 i1 h1 with ⟨rfl, rfl⟩ | h1' <;> rcases mem b2 i2 h2 with ⟨rfl, rfl⟩ | h2'
    · rfl
    · by_cases hbb : b2 = b1
      · exact hbb.symm
      · exact absurd he.symm (hfree b2 hbb i2 h2')
    · by_cases hbb : b1 = b2
      · exact hbb
      · exact absurd he (hfree b1 hbb i1 h1')
    · exact h.lock b1 b2 i1 i2 h1' h2' he
  · intro b' pd' hpd'
    rw [hpend] at hpd'
    have hbb : b' ≠ b := by
      intro e; rw [e, hp] at hpd'; cases hpd'
    obtain ⟨it, rest, h1, h2, h3⟩ := h.fly b' pd' hpd'
    have hne : it.p ≠ p := hfree b' hbb it (by rw [h1]; simp)
    refine ⟨it, rest, by simp only [modify, set_other _ _ hbb]; exact h1, by rw [setK_ne _ _ hne]; exact h2,
      h3.frame ?_ (fun e he => he)⟩
    exact get_put_ne ix s.tab (some r) hnew hne
  · intro q hq
    by_cases hqp : q = p
    · rw [hqp, setK_self]
      exact (get_put_self ix s.tab p (some r) hnew).symm
    · rw [setK_ne _ _ hqp]
      simp only [modify]
      rw [get_put_ne ix s.tab (some r) hnew hqp]
      apply h.rest
      intro b' it rest hs hit
      by_cases hbb : b' = b
      · rw [hbb]; exact hp
      · have := hq b' it rest (by simp only [modify, set_other _ _ hbb]; exact hs) hit
        rw [hpend] at this; exact this
  · intro b'
    by_cases hbb : b' = b
    · subst hbb
      have h0 := h.chain b'
      simp only [eff, hp] at h0
      simp only [eff, hpend, hp]
      simp only [modify, set_same]
      refine ⟨⟨o, r, rfl, by simp only [setK_self], hk⟩, ?_⟩
      have : setK (setK V p (some r)) p (some o) = V := by rw [← hVp]; exact setK_back V p (some r)
      simp only
      rw [this]; exact h0
    · have h0 := h.chain b'
      have he : eff (modify ix s b p (some o) (some r) none) b' = eff s b' := by
        simp only [eff, hpend]
        simp only [modify, set_other _ _ hbb]
      rw [he]
      refine h0.congr ?_
      intro it hit
      have hmem : it ∈ s.stk b' := by
        simp only [eff] at hit
        split at hit
        · exact hit
        · exact List.mem_of_mem_tail hit
      rw [setK_ne _ _ (hfree b' hbb it hmem)]
  · intro b'
    refine ⟨fun e he => Nat.lt_succ_of_lt ((h.bnd b').1 e he), ?_⟩
    intro it hit
    rcases mem b' it hit with ⟨_, rfl⟩ | hit
    · exact Nat.lt_succ_self _
    · exact Nat.lt_succ_of_lt ((h.bnd b').2 it hit)
  · intro b' it hit A u e v hA hfile hof e' he'
    have hfile' : s.file A = u ++ e :: v := hfile
    rcases mem b' it hit with ⟨_, rfl⟩ | hit
    · refine (h.bnd A).1 e' ?_
      rw [hfile']
      simp at he' ⊢
      rcases he' with he' | he'
      · exact .inl he'
      · exact .inr (.inl he')
    · exact h.order b' it hit A u e v hA hfile' hof e' he'
  · intro k
    refine (h.keys k).frame rfl rfl ?_ (fun _ b' r' hr' _ => by rw [hpend]; exact hr')
    constructor
    · rintro ⟨q, r', hq, hr'⟩
      by_cases hqp : q = p
      · rw [hqp, setK_self] at hq
        cases hq
        exact ⟨p, o, hVp, hk.trans hr'⟩
      · rw [setK_ne _ _ hqp] at hq
        exact ⟨q, r', hq, hr'⟩
    · rintro ⟨q, r', hq, hr'⟩
      by_cases hqp : q = p
      · rw [hqp, hVp] at hq
        cases hq
        exact ⟨p, r, setK_self _ _ _, hk.symm.trans hr'⟩
      · exact ⟨q, r', by rw [setK_ne _ _ hqp]; exact hq, hr'⟩

/-- The two ways an entry gets into the spool: `V` at the primary key goes over to `cur`. -/
theorem inv_append {nf : Prop} {ix : Ix} (hpk : ∀ a ∈ ix.pk, a ∈ ix.atts) {s s' : St} {V : Key → Option Row} (h : Inv nf ix s V)
    {b : Nat} {it it' : Item} {rest : List Item} {op : Op} {row : Row} {cur : Option Row} {e0 : Rec}
    (hs : s.stk b = it :: rest)
    (htab : s'.tab = s.tab) (hstk : s'.stk = set s.stk b (it' :: rest))
    (hfile : s'.file = set s.file b (s.file b ++ [e0])) (hpos : s'.pos = s.pos) (hblt : s'.built = s.built)
    (hpend : ∀ b', b' ≠ b → s'.pend b' = s.pend b')
    (hp0 : ∀ r, s.pend b = some (.cap .ins r) → ix.key r = ix.key row)
    (hd : e0.data = ix.key row) (hop : e0.hdr.op = op) (hep : e0.hdr.pos = it.loc)
    (hit : it'.p = it.p ∧ it'.loc = it.loc ∧ it'.old = it.old)
    (hrow : ix.pkOf row = it.p) (hcur : ∀ r, cur = some r → ix.pkOf r = it.p)
    (hval : (op.puts = true ∧ V it.p = none ∧ ∃ r, cur = some r ∧ ix.key r = ix.key row) ∨
      (op.puts = false ∧ cur = none ∧ ∃ r, V it.p = some r ∧ ix.key r = ix.key row))
    (hfly : ∀ pd, s'.pend b = some pd → cur = it.old ∧ Flying ix s' b it' pd)
    (hrest : s'.pend b = none → cur = get ix s.tab it.p)
    (hchain : Chain ix (setK V it.p cur) (eff s' b)) :
    Inv nf ix s' (setK V it.p cur) := by
  have hitm : it ∈ s.stk b := by rw [hs]; simp
  have mem : ∀ b' i, i ∈ s'.stk b' → ∃ j ∈ s.stk b', j.p = i.p ∧ j.loc = i.loc ∧ j.old = i.old := by
    intro b' i hi
    rw [hstk] at hi
    by_cases hbb : b' = b
    · subst hbb
      rw [set_same] at hi
      rcases List.mem_cons.1 hi with rfl | hi
      · exact ⟨it, hitm, hit.1.symm, hit.2.1.symm, hit.2.2.symm⟩
      · exact ⟨i, by rw [hs]; simp [hi], rfl, rfl, rfl⟩
    · rw [set_other _ _ hbb] at hi
      exact ⟨i, hi, rfl, rfl, rfl⟩
  have hsub : ∀ b', ∀ e ∈ s.file b', e ∈ s'.file b' := by
    intro b' e he
    rw [hfile]
    by_cases hbb : b' = b
    · subst hbb; rw [set_same]; simp [he]
    · rw [set_other _ _ hbb]; exact he
  have hother : ∀ b', b' ≠ b → ∀ i ∈ s.stk b', i.p ≠ it.p := by
    intro b' hbb i hi he
    exact hbb (h.lock b' b i it hi hitm he)
  constructor
  · intro b' hb'
    have hbb : b' ≠ b := by
      intro e
      rw [e] at hb'
      rw [(h.out b hb').1] at hs; cases hs
    rw [hstk, hfile, set_other _ _ hbb, set_other _ _ hbb]
    exact h.out b' hb'
  · rw [htab]; exact h.uniq
  · intro q r hq
    by_cases hqp : q = it.p
    · rw [hqp, setK_self] at hq
      rw [hqp]; exact hcur r hq
    · rw [setK_ne _ _ hqp] at hq
      exact h.wf q r hq
  · intro b' i hi r hr
    obtain ⟨j, hj, h1, _, h3⟩ := mem b' i hi
    rw [← h1]; exact h.old b' j hj r (h3.trans hr)
  · intro b1 b2 i1 i2 h1 h2 he
    obtain ⟨j1, hj1, g1, _⟩ := mem b1 i1 h1
    obtain ⟨j2, hj2, g2, _⟩ := mem b2 i2 h2
    exact h.lock b1 b2 j1 j2 hj1 hj2 (by rw [g1, g2, he])
  · intro b' pd hpd
    by_cases hbb : b' = b
    · subst hbb
      refine ⟨it', rest, by rw [hstk, set_same], ?_, (hfly pd hpd).2⟩
      rw [hit.1, setK_self, hit.2.2]; exact (hfly pd hpd).1
    · rw [hpend b' hbb] at hpd
      obtain ⟨i, rest', h1, h2, h3⟩ := h.fly b' pd hpd
      have hne := hother b' hbb i (by rw [h1]; simp)
      exact ⟨i, rest', by rw [hstk, set_other _ _ hbb]; exact h1, by rw [setK_ne _ _ hne]; exact h2,
        h3.frame (by rw [htab]) (hsub b')⟩
  · intro q hq
    rw [htab]
    by_cases hqp : q = it.p
    · rw [hqp, setK_self]
      exact hrest (hq b it' rest (by rw [hstk, set_same]) (hit.1.trans hqp.symm))
    · rw [setK_ne _ _ hqp]
      apply h.rest
      intro b' i rest' hs' hi
      by_cases hbb : b' = b
      · subst hbb
        rw [hs] at hs'
        cases hs'
        exact absurd hi.symm hqp
      · rw [← hpend b' hbb]
        exact hq b' i rest' (by rw [hstk, set_other _ _ hbb]; exact hs') hi
  · intro b'
    by_cases hbb : b' = b
    · rw [hbb]; exact hchain
    · have he : eff s' b' = eff s b' := by
        simp only [eff, hpend b' hbb, hstk, set_other _ _ hbb]
      rw [he]
      refine (h.chain b').congr ?_
      intro i hi
      have hmem : i ∈ s.stk b' := by
        simp only [eff] at hi
        split at hi
        · exact hi
        · exact List.mem_of_mem_tail hi
      rw [setK_ne _ _ (hother b' hbb i hmem)]
  · intro b'
    rw [hpos]
    constructor
    · intro e he
      rw [hfile] at he
      by_cases hbb : b' = b
      · subst hbb
        rw [set_same] at he
        rcases List.mem_append.1 he with he | he
        · exact (h.bnd b').1 e he
        · simp at he; subst he; rw [hep]; exact (h.bnd b').2 it hitm
      · rw [set_other _ _ hbb] at he
        exact (h.bnd b').1 e he
    · intro i hi
      obtain ⟨j, hj, _, g2, _⟩ := mem b' i hi
      rw [← g2]; exact (h.bnd b').2 j hj
  · intro b' i hi A u e v hA hfA hof e' he'
    obtain ⟨j, hj, g1, g2, _⟩ := mem b' i hi
    rw [← g1] at hof
    rw [← g2]
    rw [hfile] at hfA
    by_cases hAb : A = b
    · subst hAb
      rw [set_same] at hfA
      rcases append_single hfA with ⟨v', _, hf⟩ | ⟨_, he, _⟩
      · exact h.order b' j hj A u e v' hA hf hof e' he'
      · exfalso
        rw [he, hd] at hof
        obtain ⟨r, hr1, hr2⟩ := hof
        have := key_pk hpk hr1
        refine hother b' (Ne.symm hA) j hj ?_
        rw [← hr2, this, hrow]
    · rw [set_other _ _ hAb] at hfA
      exact h.order b' j hj A u e v hA hfA hof e' he'
  · intro k
    by_cases hk : ix.key row = k
    · rw [← hk, ← hd]
      refine KeyOk.append_eq hfile ?_ ?_
      · rw [hop, hd]
        constructor
        · intro hpt
          rcases hval with ⟨_, _, r, hc, hr⟩ | ⟨h0, _⟩
          · exact ⟨it.p, r, by rw [setK_self]; exact hc, hr⟩
          · rw [h0] at hpt; cases hpt
        · rintro ⟨q, r, hq, hr⟩
          have hpkr := key_pk hpk hr
          by_cases hqp : q = it.p
          · rw [hqp, setK_self] at hq
            rcases hval with ⟨h0, _⟩ | ⟨_, hc, _⟩
            · exact h0
            · rw [hc] at hq; cases hq
          · rw [setK_ne _ _ hqp] at hq
            exact absurd ((h.wf q r hq).symm.trans (hpkr.trans hrow)) hqp
      · have hord : ∀ (A : Nat) u e1 v, A ≠ b → s.file A = u ++ e1 :: v → e1.data = e0.data →
            ∀ e' ∈ u ++ [e1], e'.hdr.pos < it.loc := by
          intro A u e1 v hA hf hk1
          exact h.order b it hitm A u e1 v hA hf ⟨row, by rw [hk1, hd], hrow⟩
        exact ⟨e0, by simp, by rw [hep]; exact hord⟩
    · refine (h.keys k).append_ne hfile (by rw [hd]; exact hk) hblt ?_ ?_
      · constructor
        · rintro ⟨q, r, hq, hr⟩
          by_cases hqp : q = it.p
          · rw [hqp, setK_self] at hq
            exfalso
            rcases hval with ⟨_, _, r', hc, hr'⟩ | ⟨_, hc, _⟩
            · rw [hc] at hq; cases hq; exact hk (hr'.symm.trans hr)
            · rw [hc] at hq; cases hq
          · rw [setK_ne _ _ hqp] at hq
            exact ⟨q, r, hq, hr⟩
        · rintro ⟨q, r, hq, hr⟩
          by_cases hqp : q = it.p
          · rw [hqp] at hq
            exfalso
            rcases hval with ⟨_, hc, _⟩ | ⟨_, _, r', hc, hr'⟩
            · rw [hc] at hq; cases hq
            · rw [hc] at hq; cases hq; exact hk (hr'.symm.trans hr)
          · exact ⟨q, r, by rw [setK_ne _ _ hqp]; exact hq, hr⟩
      · intro _ b' r hr hrk
        by_cases hbb : b' = b
        · rw [hbb] at hr
          exact absurd ((hp0 r hr).symm.trans hrk) hk
        · rw [hpend b' hbb]; exact hr

/-- A row restored: what the spool says of it is the value restored, or of the same key. -/
theorem inv_restore {nf : Prop} {ix : Ix} {s : St} {V : Key → Option Row} (h : Inv nf ix s V) {b : Nat} {it : Item}
    {rest : List Item} (hs : s.stk b = it :: rest)
    (hpc : nf → ∀ op r, s.pend b ≠ some (.cap op r))
    (hchain : Chain ix (setK V it.p it.old) rest)
    (hin : ∀ k, InV ix (setK V it.p it.old) k ↔ InV ix V k) :
    Inv nf ix (restore ix s b it rest) (setK V it.p it.old) := by
  have hitm : it ∈ s.stk b := by rw [hs]; simp
  have hold := h.old b it hitm
  have mem : ∀ b' i, i ∈ (restore ix s b it rest).stk b' → i ∈ s.stk b' := by
    intro b' i hi
    simp only [restore] at hi
    by_cases hbb : b' = b
    · subst hbb
      rw [set_same] at hi
      rw [hs]; simp [hi]
    · rw [set_other _ _ hbb] at hi; exact hi
  have hother : ∀ b', b' ≠ b → ∀ i ∈ s.stk b', i.p ≠ it.p := by
    intro b' hbb i hi he
    exact hbb (h.lock b' b i it hi hitm he)
  constructor
  · intro b' hb'
    have hbb : b' ≠ b := by
      intro e
      rw [e] at hb'
      rw [(h.out b hb').1] at hs; cases hs
    simp only [restore, set_other _ _ hbb]
    exact h.out b' hb'
  · exact h.uniq.put _ _ hold
  · intro q r hq
    by_cases hqp : q = it.p
    · rw [hqp, setK_self] at hq
      rw [hqp]; exact hold r hq
    · rw [setK_ne _ _ hqp] at hq
      exact h.wf q r hq
  · intro b' i hi
    exact h.old b' i (mem b' i hi)
  · intro b1 b2 i1 i2 h1 h2
    exact h.lock b1 b2 i1 i2 (mem _ _ h1) (mem _ _ h2)
  · intro b' pd hpd
    simp only [restore] at hpd
    have hbb : b' ≠ b := by
      intro e
      rw [e, set_same] at hpd; cases hpd
    rw [set_other _ _ hbb] at hpd
    obtain ⟨i, rest', h1, h2, h3⟩ := h.fly b' pd hpd
    have hne := hother b' hbb i (by rw [h1]; simp)
    exact ⟨i, rest', by simp only [restore, set_other _ _ hbb]; exact h1, by rw [setK_ne _ _ hne]; exact h2,
      h3.frame (get_put_ne ix s.tab it.old hold hne) (fun e he => he)⟩
  · intro q hq
    simp only [restore]
    by_cases hqp : q = it.p
    · rw [hqp, setK_self, get_put_self ix s.tab it.p it.old hold]
    · rw [setK_ne _ _ hqp, get_put_ne ix s.tab it.old hold hqp]
      apply h.rest
      intro b' i rest' hs' hi
      by_cases hbb : b' = b
      · subst hbb
        rw [hs] at hs'
        cases hs'
        exact absurd hi.symm hqp
      · have := hq b' i rest' (by simp only [restore, set_other _ _ hbb]; exact hs') hi
        simpa only [restore, set_other _ _ hbb] using this
  · intro b'
    by_cases hbb : b' = b
    · subst hbb
      simp only [eff, restore, set_same]
      exact hchain
    · have he : eff (restore ix s b it rest) b' = eff s b' := by
        simp only [eff, restore, set_other _ _ hbb]
      rw [he]
      refine (h.chain b').congr ?_
      intro i hi
      have hmem : i ∈ s.stk b' := by
        simp only [eff] at hi
        split at hi
        · exact hi
        · exact List.mem_of_mem_tail hi
      rw [setK_ne _ _ (hother b' hbb i hmem)]
  · intro b'
    exact ⟨(h.bnd b').1, fun i hi => (h.bnd b').2 i (mem b' i hi)⟩
  · intro b' i hi
    exact h.order b' i (mem b' i hi)
  · intro k
    refine (h.keys k).frame rfl rfl (hin k) ?_
    intro hn b' r hr _
    have hbb : b' ≠ b := by
      intro e
      rw [e] at hr
      exact hpc hn _ _ hr
    simp only [restore, set_other _ _ hbb]
    exact hr

theorem inv_commit {nf : Prop} {ix : Ix} {s : St} {V : Key → Option Row} (h : Inv nf ix s V) {b : Nat} (hp : s.pend b = none) :
    Inv nf ix { s with stk := set s.stk b [] } V := by
  have mem : ∀ b' i, i ∈ set s.stk b [] b' → i ∈ s.stk b' := by
    intro b' i hi
    by_cases hbb : b' = b
    · subst hbb
      rw [set_same] at hi; simp at hi
    · rw [set_other _ _ hbb] at hi; exact hi
  constructor
  · intro b' hb'
    refine ⟨?_, (h.out b' hb').2⟩
    simp only [set]
    split
    · rfl
    · exact (h.out b' hb').1
  · exact h.uniq
  · exact h.wf
  · intro b' i hi
    exact h.old b' i (mem b' i hi)
  · intro b1 b2 i1 i2 h1 h2
    exact h.lock b1 b2 i1 i2 (mem _ _ h1) (mem _ _ h2)
  · intro b' pd hpd
    have hpd' : s.pend b' = some pd := hpd
    have hbb : b' ≠ b := by
      intro e
      rw [e, hp] at hpd'; cases hpd'
    obtain ⟨i, rest', h1, h2, h3⟩ := h.fly b' pd hpd'
    exact ⟨i, rest', by simp only [set_other _ _ hbb]; exact h1, h2, h3.frame rfl (fun e he => he)⟩
  · intro q hq
    apply h.rest
    intro b' i rest' hs' hi
    by_cases hbb : b' = b
    · rw [hbb]; exact hp
    · exact hq b' i rest' (by simp only [set_other _ _ hbb]; exact hs') hi
  · intro b'
    by_cases hbb : b' = b
    · subst hbb
      simp only [eff, hp, set_same]
      trivial
    · have := h.chain b'
      simpa only [eff, set_other _ _ hbb] using this
  · intro b'
    exact ⟨(h.bnd b').1, fun i hi => (h.bnd b').2 i (mem b' i hi)⟩
  · intro b' i hi
    exact h.order b' i (mem b' i hi)
  · intro k
    exact (h.keys k).frame rfl rfl Iff.rfl (fun _ _ _ hr _ => hr)

theorem inv_read {nf : Prop} {ix : Ix} {s : St} {V : Key → Option Row} (h : Inv nf ix s V) {p : Key} {r : Row}
    (hg : get ix s.tab p = some r) : Inv nf ix { s with built := s.built ++ [ix.key r] } V := by
  refine ⟨h.out, h.uniq, h.wf, h.old, h.lock, ?_, h.rest, h.chain, h.bnd, h.order, ?_⟩
  · intro b pd hpd
    obtain ⟨i, rest', h1, h2, h3⟩ := h.fly b pd hpd
    exact ⟨i, rest', h1, h2, h3.frame rfl (fun e he => he)⟩
  · intro k
    rcases h.keys k with ⟨h1, h2⟩ | hx
    · refine .inl ⟨h1, ?_⟩
      intro hn hk
      rcases List.mem_append.1 hk with hk | hk
      · exact h2 hn hk
      · simp only [List.mem_singleton] at hk
        by_cases hfl : ∀ b it rest, s.stk b = it :: rest → it.p = p → s.pend b = none
        · exact .inl ⟨p, r, (h.rest p hfl).trans hg, hk.symm⟩
        · simp only [Classical.not_forall] at hfl
          obtain ⟨b, it, rest, hs, hit, hpn⟩ := hfl
          cases hpd : s.pend b with
          | none => exact absurd hpd hpn
          | some pd =>
            obtain ⟨it', rest', g1, _, g3⟩ := h.fly b pd hpd
            rw [hs] at g1
            cases g1
            cases pd with
            | back =>
              rw [← hit] at hg
              obtain ⟨e, he, he'⟩ := g3 r hg
              exact absurd (he'.trans hk.symm) (h1 b e he)
            | cap op r' =>
              rw [← hit] at hg
              cases op with
              | ins =>
                have := g3.2.symm.trans hg
                cases this
                exact .inr ⟨b, r, hpd, hk.symm⟩
              | del => have := g3.2.symm.trans hg; cases this
              | rins => exact g3.elim
              | rdel => exact g3.elim
    · exact .inr hx

theorem inv_init {nf : Prop} {ix : Ix} {tab : List Row} (hu : Uniq ix tab) : Inv nf ix (init tab) (get ix tab) := by
  refine ⟨?_, hu, ?_, ?_, ?_, ?_, ?_, ?_, ?_, ?_, ?_⟩
  · intro b _; exact ⟨rfl, rfl⟩
  · intro p r hr; exact get_pk hr
  · intro b it hit; simp [init] at hit
  · intro b b' it it' hit; simp [init] at hit
  · intro b pd hpd; simp [init] at hpd
  · intro p _; rfl
  · intro b; simp [eff, init, Chain]
  · intro b; simp [init]
  · intro b it hit; simp [init] at hit
  · intro k
    left
    simp [init]

/-- Every step keeps the invariant, if the tuples of deletions are right and nothing undefined happens;
`nf` says that no statement fails half way. -/
theorem step_inv {nf : Prop} {ix : Ix} (hpk : ∀ a ∈ ix.pk, a ∈ ix.atts) (hdel : ∀ r, ix.delKey r = some (ix.key r))
    {s s' : St} {V : Key → Option Row} (h : Inv nf ix s V) {ev : Ev} (hst : step ix s ev = some s')
    (hu : s'.undef = false) (hf : nf → ∀ b, ev ≠ .fail b) : ∃ V', Inv nf ix s' V' := by
  have hout : ∀ b, ix.n ≤ b → s.stk b = [] := fun b hb => (h.out b hb).1
  cases ev with
  | ins b r =>
    simp only [step] at hst
    split at hst
    · next hc =>
      cases hst
      refine ⟨V, inv_modify h hc.1 (by simpa using hc.2.1) (by simpa using hc.2.2.1)
        (free_spec hout hc.2.2.2) (.inl ⟨rfl, r, rfl, rfl, rfl⟩)⟩
    · cases hst
  | del b p =>
    simp only [step] at hst
    split at hst
    · cases hst
    · next r hg =>
      split at hst
      · next hc =>
        cases hst
        exact ⟨V, inv_modify h hc.1 (by simpa using hc.2.1) hg (free_spec hout hc.2.2) (.inr ⟨r, rfl, rfl, rfl⟩)⟩
      · cases hst
  | upd b r =>
    simp only [step] at hst
    split at hst
    · cases hst
    · next o hg =>
      split at hst
      · next hc =>
        by_cases hk : ix.key o = ix.key r
        · rw [if_pos hk] at hst
          cases hst
          exact ⟨_, inv_upd h hc.1 (by simpa using hc.2.1) hg (free_spec hout hc.2.2) hk⟩
        · rw [if_neg hk] at hst
          cases hst
          cases hu
      · cases hst
  | cap b =>
    simp only [step] at hst
    split at hst
    · next op row it rest hp hs =>
      cases hst
      obtain ⟨it0, rest0, g1, g2, g3⟩ := h.fly b _ hp
      rw [hs] at g1
      cases g1
      have hkk : (if op = .ins then some (ix.key row) else ix.delKey row) = some (ix.key row) := by
        split
        · rfl
        · exact hdel row
      have hV : setK (setK V it.p (get ix s.tab it.p)) it.p it.old = V := by
        rw [← g2]; exact setK_back V it.p _
      have hc0 : Chain ix V rest := by
        have := h.chain b
        simpa only [eff, hp, hs, List.tail_cons] using this
      simp only [capture, hkk] at hu ⊢
      refine ⟨setK V it.p (get ix s.tab it.p), ?_⟩
      refine inv_append hpk h (op := op) (row := row) (e0 := entry it.loc (s.seq b) op (ix.key row)) hs rfl rfl rfl
        rfl rfl (fun b' hb' => by simp [append, set_other _ _ hb']) ?_ rfl rfl rfl ⟨rfl, rfl, rfl⟩ ?_ ?_ ?_ ?_
        (fun _ => rfl) ?_
      · intro r hr
        rw [hp] at hr; cases hr; rfl
      · cases op with
        | ins => exact get_pk g3.2
        | del => exact h.old b it (by rw [hs]; simp) row g3.1
        | rins => exact g3.elim
        | rdel => exact g3.elim
      · intro r hr; exact get_pk hr
      · cases op with
        | ins => exact .inl ⟨rfl, g2.trans g3.1, row, g3.2, rfl⟩
        | del => exact .inr ⟨rfl, g3.2, row, g2.trans g3.1, rfl⟩
        | rins => exact g3.elim
        | rdel => exact g3.elim
      · intro pd hpd
        simp [append, set_same] at hpd
      · simp only [eff, set_same]
        refine ⟨?_, by simp only [hV]; exact hc0⟩
        simp only [setK_self]
        cases op with
        | ins => exact ⟨g3.1, row, g3.2, rfl⟩
        | del => exact ⟨g3.2, row, g3.1, rfl⟩
        | rins => exact g3.elim
        | rdel => exact g3.elim
    · cases hst
  | undo b =>
    simp only [step, undo] at hst
    split at hst
    · next it rest hp hs =>
      have hch := h.chain b
      simp only [eff, hp, hs] at hch
      obtain ⟨hok, hch⟩ := hch
      have hitm : it ∈ s.stk b := by rw [hs]; simp
      have hVt := h.get_head hp hs
      split at hst
      · next op k hcap =>
        cases hst
        have hrow : ∃ row, ix.key row = k ∧ ix.pkOf row = it.p ∧
            ((op.reverse.puts = true ∧ V it.p = none ∧ ∃ r, it.old = some r ∧ ix.key r = k) ∨
             (op.reverse.puts = false ∧ it.old = none ∧ ∃ r, V it.p = some r ∧ ix.key r = k)) := by
          simp only [Ok, hcap] at hok
          cases op with
          | ins =>
            obtain ⟨h1, r, h2, h3⟩ := hok
            exact ⟨r, h3, h.wf _ _ h2, .inr ⟨rfl, h1, r, h2, h3⟩⟩
          | del =>
            obtain ⟨h1, r, h2, h3⟩ := hok
            exact ⟨r, h3, h.old b it hitm r h2, .inl ⟨rfl, h1, r, h2, h3⟩⟩
          | rins => exact hok.elim
          | rdel => exact hok.elim
        obtain ⟨row, hk, hrp, hval⟩ := hrow
        subst hk
        refine ⟨setK V it.p it.old, ?_⟩
        refine inv_append hpk h (op := op.reverse) (row := row)
          (e0 := entry it.loc (s.seq b) op.reverse (ix.key row)) hs rfl rfl rfl
          rfl rfl (fun b' hb' => by simp [append, set_other _ _ hb']) ?_ rfl rfl rfl ⟨rfl, rfl, rfl⟩ hrp
          (h.old b it hitm) hval ?_ ?_ ?_
        · intro r hr
          rw [hp] at hr; cases hr
        · intro pd hpd
          simp only [append, set_same, Option.some.injEq] at hpd
          subst hpd
          refine ⟨rfl, ?_⟩
          intro r hr
          refine ⟨entry it.loc (s.seq b) op.reverse (ix.key row), by simp [append, set_same], ?_⟩
          have hr' : V it.p = some r := hVt.trans hr
          rcases hval with ⟨_, h1, _⟩ | ⟨_, _, r', h1, h2⟩
          · rw [h1] at hr'; cases hr'
          · rw [h1] at hr'; cases hr'; exact h2.symm
        · intro hpn
          simp [set_same] at hpn
        · simp only [eff, set_same, List.tail_cons]
          exact hch
      · next hcap =>
        cases hst
        refine ⟨setK V it.p it.old, inv_restore h hs (fun _ op r hr => by rw [hp] at hr; cases hr) hch ?_⟩
        simp only [Ok, hcap] at hok
        obtain ⟨r, r', h1, h2, h3⟩ := hok
        intro k
        constructor
        · rintro ⟨q, x, hq, hx⟩
          by_cases hqp : q = it.p
          · rw [hqp, setK_self, h1] at hq
            cases hq
            exact ⟨it.p, r', h2, h3.symm.trans hx⟩
          · rw [setK_ne _ _ hqp] at hq
            exact ⟨q, x, hq, hx⟩
        · rintro ⟨q, x, hq, hx⟩
          by_cases hqp : q = it.p
          · rw [hqp, h2] at hq
            cases hq
            exact ⟨it.p, r, by rw [setK_self, h1], h3.trans hx⟩
          · exact ⟨q, x, by rw [setK_ne _ _ hqp]; exact hq, hx⟩
    · next it rest hp hs =>
      cases hst
      obtain ⟨it0, rest0, g1, g2, g3⟩ := h.fly b _ hp
      rw [hs] at g1
      cases g1
      have hV : setK V it.p it.old = V := by
        funext q
        by_cases hq : q = it.p
        · rw [hq, setK_self, g2]
        · rw [setK_ne _ _ hq]
      have hch := h.chain b
      simp only [eff, hp, hs, List.tail_cons] at hch
      exact ⟨_, inv_restore h hs (fun _ op r hr => by rw [hp] at hr; cases hr) (by rw [hV]; exact hch)
        (by rw [hV]; exact fun _ => Iff.rfl)⟩
    · cases hst
  | fail b =>
    simp only [step] at hst
    split at hst
    · next op row it rest hp hs =>
      cases hst
      obtain ⟨it0, rest0, g1, g2, g3⟩ := h.fly b _ hp
      rw [hs] at g1
      cases g1
      have hV : setK V it.p it.old = V := by
        funext q
        by_cases hq : q = it.p
        · rw [hq, setK_self, g2]
        · rw [setK_ne _ _ hq]
      have hch := h.chain b
      simp only [eff, hp, hs, List.tail_cons] at hch
      exact ⟨_, inv_restore h hs (fun hn => absurd rfl (hf hn b)) (by rw [hV]; exact hch)
        (by rw [hV]; exact fun _ => Iff.rfl)⟩
    · cases hst
  | commit b =>
    simp only [step] at hst
    split at hst
    · next hc =>
      cases hst
      exact ⟨V, inv_commit h (by simpa using hc)⟩
    · cases hst
  | reopen b =>
    simp only [step] at hst
    cases hst
    refine ⟨V, ⟨h.out, h.uniq, h.wf, h.old, h.lock, ?_, h.rest, h.chain, h.bnd, h.order, ?_⟩⟩
    · intro b pd hpd
      obtain ⟨i, rest', h1, h2, h3⟩ := h.fly b pd hpd
      exact ⟨i, rest', h1, h2, h3.frame rfl (fun e he => he)⟩
    · intro k
      exact (h.keys k).frame rfl rfl Iff.rfl (fun _ _ _ hr _ => hr)
  | read p =>
    simp only [step] at hst
    split at hst
    · cases hst; exact ⟨V, h⟩
    · next r hg =>
      cases hst
      exact ⟨V, inv_read h hg⟩

/-- Once something undefined has happened, it has happened. -/
theorem step_undef {ix : Ix} {s s' : St} {ev : Ev} (hst : step ix s ev = some s') (hu : s'.undef = false) :
    s.undef = false := by
  cases ev with
  | ins b r => simp only [step] at hst; split at hst <;> cases hst; exact hu
  | del b p =>
    simp only [step] at hst
    split at hst
    · cases hst
    · split at hst <;> cases hst; exact hu
  | upd b r =>
    simp only [step] at hst
    split at hst
    · cases hst
    · split at hst
      · cases hst
        split at hu
        · exact hu
        · cases hu
      · cases hst
  | cap b =>
    simp only [step, capture] at hst
    split at hst
    · cases hst
      split at hu
      · cases hu
      · exact hu
    · cases hst
  | undo b =>
    simp only [step, undo] at hst
    split at hst
    · split at hst <;> cases hst <;> exact hu
    · cases hst; exact hu
    · cases hst
  | fail b => simp only [step] at hst; split at hst <;> cases hst; exact hu
  | commit b => simp only [step] at hst; split at hst <;> cases hst; exact hu
  | reopen b => simp only [step] at hst; cases hst; exact hu
  | read p => simp only [step] at hst; split at hst <;> cases hst <;> exact hu

theorem run_undef {ix : Ix} : ∀ {evs : List Ev} {s s' : St}, run ix s evs = some s' → s'.undef = false →
    s.undef = false := by
  intro evs
  induction evs with
  | nil => intro s s' h hu; simp only [run] at h; cases h; exact hu
  | cons ev evs ih =>
    intro s s' h hu
    simp only [run] at h
    split at h
    · cases h
    · next s1 hs => exact step_undef hs (ih h hu)

theorem run_inv {nf : Prop} {ix : Ix} (hpk : ∀ a ∈ ix.pk, a ∈ ix.atts) (hdel : ∀ r, ix.delKey r = some (ix.key r)) :
    ∀ {evs : List Ev} {s s' : St} {V : Key → Option Row}, Inv nf ix s V → run ix s evs = some s' →
    s'.undef = false → (nf → ∀ b, Ev.fail b ∉ evs) → ∃ V', Inv nf ix s' V' := by
  intro evs
  induction evs with
  | nil => intro s s' V h hr _ _; simp only [run] at hr; cases hr; exact ⟨V, h⟩
  | cons ev evs ih =>
    intro s s' V h hr hu hf
    simp only [run] at hr
    split at hr
    · cases hr
    · next s1 hs =>
      obtain ⟨V1, h1⟩ := step_inv hpk hdel h hs (run_undef hr hu)
        (fun hn b e => hf hn b (by rw [e]; simp))
      exact ih h1 hr hu (fun hn b hb => hf hn b (by simp [hb]))

end Verif.Cic
