import Verif.Cic.Model
import Verif.Cic.Merge

/-! # What holds while the table is changed and the index is built -/

namespace Verif.Cic

theorem set_same {α : Type} (f : Nat → α) (x : Nat) (a : α) : set f x a x = a := by simp [set]

theorem set_other {α : Type} (f : Nat → α) {x y : Nat} (a : α) (h : y ≠ x) : set f x a y = f y := by
  simp [set, h]

/-- The key gives the primary key. -/
theorem key_pk {ix : Ix} (hpk : ∀ a ∈ ix.pk, a ∈ ix.atts) {r r' : Row} (h : ix.key r = ix.key r') :
    ix.pkOf r = ix.pkOf r' := by
  simp only [Ix.key, Ix.pkOf, proj, List.map_inj_left] at h ⊢
  intro a ha
  exact h a (hpk a ha)

theorem get_pk {ix : Ix} {t p r} (h : get ix t p = some r) : ix.pkOf r = p := by
  have := List.find?_some h
  simpa using this

theorem get_put_self (ix : Ix) (t : List Row) (p : Key) (o : Option Row) (h : ∀ r, o = some r → ix.pkOf r = p) :
    get ix (put ix t p o) p = o := by
  simp only [get, put, List.find?_append]
  have : (t.filter (fun r => ix.pkOf r != p)).find? (fun r => ix.pkOf r == p) = none := by
    rw [List.find?_eq_none]
    intro r hr
    simp at hr ⊢
    exact hr.2
  rw [this]
  cases o with
  | none => rfl
  | some r => simp [h r rfl]

theorem get_put_ne (ix : Ix) (t : List Row) {p q : Key} (o : Option Row) (h : ∀ r, o = some r → ix.pkOf r = p)
    (hq : q ≠ p) : get ix (put ix t p o) q = get ix t q := by
  simp only [get, put, List.find?_append, List.find?_filter]
  have e1 : (t.find? fun a => decide ((ix.pkOf a != p) = true ∧ (ix.pkOf a == q) = true))
      = t.find? (fun r => ix.pkOf r == q) := by
    congr 1
    funext r
    by_cases hr : ix.pkOf r = q
    · simp [hr, hq]
    · simp [hr]
  rw [e1]
  have e2 : o.toList.find? (fun r => ix.pkOf r == q) = none := by
    cases o with
    | none => rfl
    | some r =>
      rw [List.find?_eq_none]
      intro x hx
      simp at hx
      subst hx
      simp [h x rfl]
      exact fun h => hq h.symm
  rw [e2]
  simp

/-- Each primary key has one row. -/
def Uniq (ix : Ix) (t : List Row) : Prop := ∀ r ∈ t, ∀ r' ∈ t, ix.pkOf r = ix.pkOf r' → r = r'

theorem Uniq.put {ix : Ix} {t : List Row} (h : Uniq ix t) (p : Key) (o : Option Row)
    (ho : ∀ r, o = some r → ix.pkOf r = p) : Uniq ix (put ix t p o) := by
  intro r hr r' hr' hp
  simp only [Verif.Cic.put, List.mem_append, List.mem_filter, bne_iff_ne, ne_eq, Option.mem_toList] at hr hr'
  rcases hr with hr | hr <;> rcases hr' with hr' | hr'
  · exact h r hr.1 r' hr'.1 hp
  · exact absurd (hp.trans (ho r' hr')) hr.2
  · exact absurd (hp.symm.trans (ho r hr)) hr'.2
  · rw [hr] at hr'; simpa using hr'

theorem Uniq.get {ix : Ix} {t : List Row} (h : Uniq ix t) {r : Row} (hr : r ∈ t) :
    get ix t (ix.pkOf r) = some r := by
  cases hg : Verif.Cic.get ix t (ix.pkOf r) with
  | none =>
    simp only [Verif.Cic.get, List.find?_eq_none] at hg
    exact absurd (by simp) (hg r hr)
  | some r' =>
    rw [h r' (List.mem_of_find?_eq_some hg) r hr (get_pk hg)]

/-- Change one value. -/
def setK (V : Key → Option Row) (p : Key) (o : Option Row) : Key → Option Row := fun q => if q = p then o else V q

theorem setK_self (V : Key → Option Row) (p o) : setK V p o p = o := by simp [setK]

theorem setK_ne (V : Key → Option Row) {p q : Key} (o) (h : q ≠ p) : setK V p o q = V q := by simp [setK, h]

theorem setK_back (V : Key → Option Row) (p : Key) (o : Option Row) : setK (setK V p o) p (V p) = V := by
  funext q
  by_cases h : q = p
  · subst h; simp [setK]
  · simp [setK, h]

/-- What an item of the undo stack says about the change: what the row is now. -/
def Ok (ix : Ix) (it : Item) (cur : Option Row) : Prop :=
  match it.cap with
  | some (.ins, k) => it.old = none ∧ ∃ r, cur = some r ∧ ix.key r = k
  | some (.del, k) => cur = none ∧ ∃ r, it.old = some r ∧ ix.key r = k
  | some _ => False
  | none => ∃ r r', it.old = some r ∧ cur = some r' ∧ ix.key r = ix.key r'

/-- The items of an undo stack follow from each other. -/
def Chain (ix : Ix) : (Key → Option Row) → List Item → Prop
  | _, [] => True
  | V, it :: rest => Ok ix it (V it.p) ∧ Chain ix (setK V it.p it.old) rest

theorem Chain.congr {ix : Ix} : ∀ {l : List Item} {V V' : Key → Option Row}, (∀ it ∈ l, V it.p = V' it.p) →
    Chain ix V l → Chain ix V' l := by
  intro l
  induction l with
  | nil => intros; trivial
  | cons it l ih =>
    intro V V' h hc
    refine ⟨(h it (by simp)) ▸ hc.1, ih ?_ hc.2⟩
    intro it' h'
    simp only [setK]
    split
    · rfl
    · exact h it' (by simp [h'])

/-- The part of the stack whose changes are in the spool. -/
def eff (s : St) (b : Nat) : List Item :=
  match s.pend b with
  | none => s.stk b
  | some _ => (s.stk b).tail

/-- A key is in the index of what the spool says. -/
def InV (ix : Ix) (V : Key → Option Row) (k : Key) : Prop := ∃ p r, V p = some r ∧ ix.key r = k

/-- The key belongs to the row with this primary key. -/
def OfPk (ix : Ix) (k p : Key) : Prop := ∃ r, ix.key r = k ∧ ix.pkOf r = p

/-- A change being made or taken back. -/
def Flying (ix : Ix) (s : St) (b : Nat) (it : Item) : Pend → Prop
  | .cap .ins r => it.old = none ∧ get ix s.tab it.p = some r
  | .cap .del r => it.old = some r ∧ get ix s.tab it.p = none
  | .cap _ _ => False
  | .back => ∀ r, get ix s.tab it.p = some r → ∃ e ∈ s.file b, e.data = ix.key r

/-- The last entry of a key is in file `B`, after `x`. -/
def Cross (file : Nat → List Rec) (k : Key) (B : Nat) (n : Nat) : Prop :=
  ∀ (A : Nat) u e1 v, A ≠ B → file A = u ++ e1 :: v → e1.data = k →
    ∃ x' f y', file B = x' ++ f :: y' ∧ x'.length ≤ n ∧ ∀ e' ∈ u ++ [e1], e'.hdr.pos < f.hdr.pos

/-- What is known of a key: it has no entry, and if the builder has read it, it is in the index, as long as no
statement has failed half way (`nf`); or its last entry says whether it is in the index. -/
def KeyOk (nf : Prop) (ix : Ix) (s : St) (V : Key → Option Row) (k : Key) : Prop :=
  ((∀ b, ∀ e ∈ s.file b, e.data ≠ k) ∧
    (nf → k ∈ s.built → InV ix V k ∨ ∃ b r, s.pend b = some (.cap .ins r) ∧ ix.key r = k)) ∨
  ∃ B x e y, s.file B = x ++ e :: y ∧ e.data = k ∧ (∀ e' ∈ y, e'.data ≠ k) ∧
    (e.hdr.op.puts = true ↔ InV ix V k) ∧ Cross s.file k B x.length

/-- The invariant; `V` is the table as the spool tells it. -/
structure Inv (nf : Prop) (ix : Ix) (s : St) (V : Key → Option Row) : Prop where
  out : ∀ b, ix.n ≤ b → s.stk b = [] ∧ s.file b = []
  uniq : Uniq ix s.tab
  wf : ∀ p r, V p = some r → ix.pkOf r = p
  old : ∀ b, ∀ it ∈ s.stk b, ∀ r, it.old = some r → ix.pkOf r = it.p
  lock : ∀ b b' it it', it ∈ s.stk b → it' ∈ s.stk b' → it.p = it'.p → b = b'
  fly : ∀ b pd, s.pend b = some pd → ∃ it rest, s.stk b = it :: rest ∧ V it.p = it.old ∧ Flying ix s b it pd
  rest : ∀ p, (∀ b it rest, s.stk b = it :: rest → it.p = p → s.pend b = none) → V p = get ix s.tab p
  chain : ∀ b, Chain ix V (eff s b)
  bnd : ∀ b, (∀ e ∈ s.file b, e.hdr.pos < s.pos) ∧ (∀ it ∈ s.stk b, it.loc < s.pos)
  order : ∀ b, ∀ it ∈ s.stk b, ∀ (A : Nat) u e v, A ≠ b → s.file A = u ++ e :: v → OfPk ix e.data it.p →
    ∀ e' ∈ u ++ [e], e'.hdr.pos < it.loc
  keys : ∀ k, KeyOk nf ix s V k

theorem free_spec {ix : Ix} {s : St} {b p} (hout : ∀ b, ix.n ≤ b → s.stk b = []) (h : free ix s b p = true) :
    ∀ b', b' ≠ b → ∀ it ∈ s.stk b', it.p ≠ p := by
  intro b' hb it hit
  rcases Nat.lt_or_ge b' ix.n with hlt | hge
  · simp only [free, List.all_eq_true, List.mem_range, Bool.or_eq_true, beq_iff_eq, bne_iff_ne] at h
    rcases h b' hlt with h | h
    · exact absurd h hb
    · exact h it hit
  · rw [hout b' hge] at hit; simp at hit

theorem KeyOk.frame {nf : Prop} {ix : Ix} {s s' : St} {V V' : Key → Option Row} {k : Key} (h : KeyOk nf ix s V k)
    (hf : s'.file = s.file) (hb : s'.built = s.built) (hv : InV ix V' k ↔ InV ix V k)
    (hp : nf → ∀ b r, s.pend b = some (.cap .ins r) → ix.key r = k → s'.pend b = some (.cap .ins r)) :
    KeyOk nf ix s' V' k := by
  rcases h with ⟨h1, h2⟩ | ⟨B, x, e, y, h1, h2, h3, h4, h5⟩
  · refine .inl ⟨by rw [hf]; exact h1, ?_⟩
    rw [hb]
    intro hn hk
    rcases h2 hn hk with h | ⟨b, r, h, h'⟩
    · exact .inl (hv.2 h)
    · exact .inr ⟨b, r, hp hn b r h h', h'⟩
  · refine .inr ⟨B, x, e, y, by rw [hf]; exact h1, h2, h3, h4.trans hv.symm, by rw [hf]; exact h5⟩

/-- Where a member of a longer list is. -/
theorem append_single {α : Type} {l u v : List α} {a e : α} (h : l ++ [a] = u ++ e :: v) :
    (∃ v', v = v' ++ [a] ∧ l = u ++ e :: v') ∨ (v = [] ∧ e = a ∧ u = l) := by
  rcases List.eq_nil_or_concat v with rfl | ⟨v', x, rfl⟩
  · right
    have := List.append_inj' h (by simp)
    simp at this
    exact ⟨rfl, this.2.symm, this.1.symm⟩
  · left
    have h' : l ++ [a] = (u ++ e :: v') ++ [x] := by simpa using h
    have := List.append_inj' h' rfl
    simp at this
    exact ⟨v', by simp [this.2], by simpa using this.1⟩

theorem KeyOk.append_ne {nf : Prop} {ix : Ix} {s s' : St} {V V' : Key → Option Row} {k : Key} {b0 : Nat} {e0 : Rec}
    (h : KeyOk nf ix s V k)
    (hf : s'.file = set s.file b0 (s.file b0 ++ [e0])) (he : e0.data ≠ k)
    (hb : s'.built = s.built) (hv : InV ix V' k ↔ InV ix V k)
    (hp : nf → ∀ b r, s.pend b = some (.cap .ins r) → ix.key r = k → s'.pend b = some (.cap .ins r)) :
    KeyOk nf ix s' V' k := by
  rcases h with ⟨h1, h2⟩ | ⟨B, x, e, y, h1, h2, h3, h4, h5⟩
  · refine .inl ⟨?_, ?_⟩
    · intro b e hm
      rw [hf] at hm
      by_cases hbb : b = b0
      · subst hbb
        rw [set_same] at hm
        rcases List.mem_append.1 hm with hm | hm
        · exact h1 b e hm
        · simp at hm; subst hm; exact he
      · rw [set_other _ _ hbb] at hm
        exact h1 b e hm
    · rw [hb]
      intro hn hk
      rcases h2 hn hk with h | ⟨b, r, h, h'⟩
      · exact .inl (hv.2 h)
      · exact .inr ⟨b, r, hp hn b r h h', h'⟩
  · right
    have hcr : Cross s'.file k B x.length := by
      intro A u e1 v hAB hA hk
      have hA' : ∃ v', s.file A = u ++ e1 :: v' := by
        rw [hf] at hA
        by_cases hAb : A = b0
        · subst hAb
          rw [set_same] at hA
          rcases append_single hA with ⟨v', _, h⟩ | ⟨_, h, _⟩
          · exact ⟨v', h⟩
          · rw [h] at hk; exact absurd hk he
        · rw [set_other _ _ hAb] at hA; exact ⟨v, hA⟩
      obtain ⟨v', hA'⟩ := hA'
      obtain ⟨x', f, y', g1, g2, g3⟩ := h5 A u e1 v' hAB hA' hk
      rw [hf]
      by_cases hB : B = b0
      · subst hB
        exact ⟨x', f, y' ++ [e0], by rw [set_same, g1]; simp, g2, g3⟩
      · exact ⟨x', f, y', by rw [set_other _ _ hB, g1], g2, g3⟩
    by_cases hB : B = b0
    · subst hB
      refine ⟨B, x, e, y ++ [e0], by rw [hf, set_same, h1]; simp, h2, ?_, h4.trans hv.symm, hcr⟩
      intro e' he'
      rcases List.mem_append.1 he' with he' | he'
      · exact h3 e' he'
      · simp at he'; subst he'; exact he
    · exact ⟨B, x, e, y, by rw [hf, set_other _ _ hB, h1], h2, h3, h4.trans hv.symm, hcr⟩

/-- The key of the entry appended: some entry `f` before it, or itself, is above all entries of the key in
other files. -/
theorem KeyOk.append_eq {nf : Prop} {ix : Ix} {s' : St} {V' : Key → Option Row} {file : Nat → List Rec} {b0 : Nat} {e0 : Rec}
    (hf : s'.file = set file b0 (file b0 ++ [e0])) (hv : e0.hdr.op.puts = true ↔ InV ix V' e0.data)
    (hx : ∃ f ∈ file b0 ++ [e0], ∀ (A : Nat) u e1 v, A ≠ b0 → file A = u ++ e1 :: v → e1.data = e0.data →
      ∀ e' ∈ u ++ [e1], e'.hdr.pos < f.hdr.pos) :
    KeyOk nf ix s' V' e0.data := by
  right
  refine ⟨b0, file b0, e0, [], by rw [hf, set_same], rfl, by simp, hv, ?_⟩
  intro A u e1 v hA hfile hk
  rw [hf, set_other _ _ hA] at hfile
  obtain ⟨f, hf1, hf2⟩ := hx
  obtain ⟨x', y', hxy⟩ := List.append_of_mem hf1
  refine ⟨x', f, y', by rw [hf, set_same, hxy], ?_, hf2 A u e1 v hA hfile hk⟩
  have := congrArg List.length hxy
  simp at this
  omega

end Verif.Cic
