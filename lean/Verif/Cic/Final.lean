import Verif.Cic.Steps

/-! # The finished index -/

namespace Verif.Cic

/-- All entries come back with the bytes written. -/
def OwnBytes (files : List (List Rec)) : Prop := ∀ o ∈ readFiles files, o.data = .bytes o.src.data

theorem drain_none : ∀ {outs : List Out} {t t' : List Nat → Bool} {k : Key},
    (∀ o ∈ outs, o.data = .bytes o.src.data) → drain t outs = some t' → (∀ o ∈ outs, o.src.data ≠ k) →
    t' k = t k := by
  intro outs
  induction outs with
  | nil => intro t t' k _ h _; simp only [drain] at h; cases h; rfl
  | cons o outs ih =>
    intro t t' k hb h hk
    simp only [drain, applyOut, hb o (by simp)] at h
    rw [ih (fun o ho => hb o (by simp [ho])) h (fun o ho => hk o (by simp [ho]))]
    exact if_neg (fun e => hk o (by simp) e.symm)

theorem drain_last : ∀ {l1 : List Out} {o : Out} {l2 : List Out} {t t' : List Nat → Bool} {k : Key},
    (∀ o' ∈ l1 ++ o :: l2, o'.data = .bytes o'.src.data) → drain t (l1 ++ o :: l2) = some t' →
    o.src.data = k → (∀ o' ∈ l2, o'.src.data ≠ k) → t' k = o.src.hdr.op.puts := by
  intro l1
  induction l1 with
  | nil =>
    intro o l2 t t' k hb h ho hk
    simp only [List.nil_append] at hb h
    simp only [drain, applyOut, hb o (by simp)] at h
    rw [drain_none (fun o' ho' => hb o' (by simp [ho'])) h hk]
    simp [ho]
  | cons o1 l1 ih =>
    intro o l2 t t' k hb h ho hk
    simp only [List.cons_append] at hb h
    simp only [drain, applyOut, hb o1 (by simp)] at h
    exact ih (fun o' ho' => hb o' (List.mem_cons_of_mem _ ho')) h ho hk

theorem drain_total : ∀ {outs : List Out} (t : List Nat → Bool),
    (∀ o ∈ outs, o.data = .bytes o.src.data) → ∃ t', drain t outs = some t' := by
  intro outs
  induction outs with
  | nil => intro t _; exact ⟨t, rfl⟩
  | cons o outs ih =>
    intro t hb
    simp only [drain, applyOut, hb o (by simp)]
    exact ih _ (fun o ho => hb o (by simp [ho]))

/-- What is known of a key at the end, by the entries as they are read. -/
theorem keys_read {nf : Prop} {ix : Ix} {s : St} {V : Key → Option Row} (h : Inv nf ix s V)
    (hq : quiet ix s) {dir : List Nat} (hnd : dir.Nodup) (hdir : ∀ b, b < ix.n → s.file b ≠ [] → b ∈ dir)
    (k : Key) :
    ((∀ o ∈ readFiles (dir.map s.file), o.src.data ≠ k) ∧ (nf → k ∈ s.built → InV ix V k)) ∨
    ∃ l1 o l2, readFiles (dir.map s.file) = l1 ++ o :: l2 ∧ o.src.data = k ∧ (∀ o' ∈ l2, o'.src.data ≠ k) ∧
      (o.src.hdr.op.puts = true ↔ InV ix V k) := by
  have hm := readFiles_merge (dir.map s.file)
  have hpend : ∀ b, s.pend b = none := by
    intro b
    cases hp : s.pend b with
    | none => rfl
    | some pd =>
      obtain ⟨it, rest, h1, _⟩ := h.fly b pd hp
      rcases Nat.lt_or_ge b ix.n with hb | hb
      · rw [(hq b hb).1] at hp; cases hp
      · rw [(h.out b hb).1] at h1; cases h1
  have hval : ∀ o ∈ readFiles (dir.map s.file), ∃ b, o.src ∈ s.file b := by
    intro o ho
    obtain ⟨l, hl⟩ := hm.valid (o.file, o.src) (List.mem_map.2 ⟨o, ho, rfl⟩)
    have hfl := hm.file _ _ hl
    simp only [List.getElem?_map] at hl
    cases hd : dir[o.file]? with
    | none => simp [hd] at hl
    | some b =>
      simp only [hd, Option.map_some, Option.some.injEq] at hl
      refine ⟨b, ?_⟩
      rw [hl, ← hfl]
      simp only [ofFile, List.mem_map, List.mem_filter]
      exact ⟨(o.file, o.src), ⟨⟨o, ho, rfl⟩, by simp⟩, rfl⟩
  rcases h.keys k with ⟨h1, h2⟩ | ⟨B, x, e, y, h1, h2, h3, h4, h5⟩
  · refine .inl ⟨?_, ?_⟩
    · intro o ho
      obtain ⟨b, hb⟩ := hval o ho
      exact h1 b _ hb
    · intro hn hk
      rcases h2 hn hk with h | ⟨b, r, hb, _⟩
      · exact h
      · rw [hpend b] at hb; cases hb
  · right
    have hBn : B < ix.n := by
      rcases Nat.lt_or_ge B ix.n with hb | hb
      · exact hb
      · have := (h.out B hb).2
        rw [h1] at this; simp at this
    have hBd : B ∈ dir := hdir B hBn (by rw [h1]; simp)
    obtain ⟨i, hi⟩ := List.mem_iff_getElem?.1 hBd
    have hfi : (dir.map s.file)[i]? = some (x ++ e :: y) := by
      rw [List.getElem?_map, hi, Option.map_some, h1]
    obtain ⟨l1, l2, hout, hl2⟩ := hm.last (fun r => r.data = k) hfi h3 (by
      intro A u e1 v hA hfA hk
      rw [List.getElem?_map] at hfA
      cases hd : dir[A]? with
      | none => simp [hd] at hfA
      | some a =>
        simp only [hd, Option.map_some, Option.some.injEq] at hfA
        have haB : a ≠ B := by
          intro e
          rw [e] at hd
          exact hA (by
            have hlt : A < dir.length := by
              rcases Nat.lt_or_ge A dir.length with h | h
              · exact h
              · simp [List.getElem?_eq_none h] at hd
            exact (List.getElem?_inj hlt hnd).1 (hd.trans hi.symm))
        obtain ⟨x', f, y', g1, g2, g3⟩ := h5 a u e1 v haB hfA hk
        exact ⟨x', f, y', by rw [← h1, g1], g2, g3⟩)
    rw [List.map_eq_append_iff] at hout
    obtain ⟨m1, m2, hr, _, hm2⟩ := hout
    rw [List.map_eq_cons_iff] at hm2
    obtain ⟨o, m3, hm2', ho, hm3⟩ := hm2
    have hos : o.src = e := (Prod.mk.inj ho).2
    refine ⟨m1, o, m3, by rw [hr, hm2'], by rw [hos]; exact h2, ?_, by rw [hos]; exact h4⟩
    intro o' ho'
    exact hl2 (o'.file, o'.src) (by rw [← hm3]; exact List.mem_map.2 ⟨o', ho', rfl⟩)

/-- At the end, what the spool says of the table is the table. -/
theorem inV_quiet {nf : Prop} {ix : Ix} {s : St} {V : Key → Option Row} (h : Inv nf ix s V) (hq : quiet ix s)
    (k : Key) : InV ix V k ↔ ∃ r ∈ s.tab, ix.key r = k := by
  have hV : ∀ p, V p = get ix s.tab p := by
    intro p
    apply h.rest
    intro b it rest hs _
    rcases Nat.lt_or_ge b ix.n with hb | hb
    · exact (hq b hb).1
    · rw [(h.out b hb).1] at hs; cases hs
  constructor
  · rintro ⟨p, r, hp, hr⟩
    rw [hV] at hp
    exact ⟨r, List.mem_of_find?_eq_some hp, hr⟩
  · rintro ⟨r, hr, hk⟩
    exact ⟨ix.pkOf r, r, by rw [hV]; exact h.uniq.get hr, hk⟩

/-- The tuple of a deletion is right if the columns of the index are the first ones of the table, in
order. -/
theorem delKey_range {ix : Ix} (h : ix.atts = List.range ix.atts.length) (r : Row) :
    ix.delKey r = some (ix.key r) := by
  have hlen : (ix.key r).length = ix.atts.length := by simp [Ix.key, proj]
  have : ∀ (l : List Nat), (∀ a ∈ l, a < ix.atts.length) →
      l.mapM (fun a => (ix.key r)[a]?) = some (l.map (fun a => (ix.key r).getD a 0)) := by
    intro l
    induction l with
    | nil => intro _; rfl
    | cons a l ih =>
      intro hl
      have ha : a < (ix.key r).length := by rw [hlen]; exact hl a (by simp)
      rw [List.mapM_cons, ih (fun a ha => hl a (by simp [ha]))]
      simp [List.getElem?_eq_getElem ha]
  simp only [Ix.delKey]
  rw [this ix.atts (by intro a ha; rw [h] at ha; simpa using ha)]
  congr 1
  apply List.ext_getElem
  · simp [hlen]
  · intro i h1 h2
    simp only [List.length_map] at h1
    have e : ix.atts[i] = i := by
      have := List.getElem_of_eq h h1
      simpa using this
    simp only [List.getElem_map, e]
    rw [List.getD_eq_getElem?_getD, List.getElem?_eq_getElem h2]
    rfl

/-! ### One file -/

/-- A stream with nothing in it. -/
def Stream.empty (s : Stream) : Prop := s.rest = [] ∧ s.peek = none

theorem peekAll_empty : ∀ {ss : List Stream} gen buf, (∀ s ∈ ss, s.empty) → peekAll gen buf ss = (gen, buf, ss) := by
  intro ss
  induction ss with
  | nil => intros; rfl
  | cons s ss ih =>
    intro gen buf h
    obtain ⟨rest, pk⟩ := s
    have := h ⟨rest, pk⟩ (by simp)
    obtain ⟨rfl, rfl⟩ := this
    simp only [peekAll]
    rw [ih gen buf (fun s hs => h s (by simp [hs]))]

theorem peekAll_append : ∀ {a : List Stream} (b : List Stream) gen buf, (∀ s ∈ a, s.empty) →
    peekAll gen buf (a ++ b) = ((peekAll gen buf b).1, (peekAll gen buf b).2.1, a ++ (peekAll gen buf b).2.2) := by
  intro a
  induction a with
  | nil => intros; rfl
  | cons s a ih =>
    intro b gen buf h
    obtain ⟨rest, pk⟩ := s
    have := h ⟨rest, pk⟩ (by simp)
    obtain ⟨rfl, rfl⟩ := this
    simp only [List.cons_append, peekAll]
    rw [ih b gen buf (fun s hs => h s (by simp [hs]))]

theorem best_empty : ∀ {ss : List Stream} (i : Nat) acc, (∀ s ∈ ss, s.empty) → best i acc ss = acc := by
  intro ss
  induction ss with
  | nil => intros; rfl
  | cons s ss ih =>
    intro i acc h
    simp only [best, (h s (by simp)).2]
    exact ih _ _ (fun s hs => h s (by simp [hs]))

theorem best_append : ∀ {a : List Stream} (b : List Stream) (i : Nat) acc, (∀ s ∈ a, s.empty) →
    best i acc (a ++ b) = best (i + a.length) acc b := by
  intro a
  induction a with
  | nil => intros; rfl
  | cons s a ih =>
    intro b i acc h
    simp only [List.cons_append, best, (h s (by simp)).2]
    rw [ih b (i + 1) acc (fun s hs => h s (by simp [hs]))]
    congr 1
    simp only [List.length_cons]; omega

theorem readAll_single : ∀ (n : Nat) (a c : List Stream) (l : List Rec) gen buf, (∀ s ∈ a, s.empty) →
    (∀ s ∈ c, s.empty) → (∀ e ∈ l, e.hdr.len = e.data.length ∧ e.data ≠ []) →
    ∀ o ∈ readAll n ⟨a ++ ⟨l, none⟩ :: c, gen, buf⟩, o.data = .bytes o.src.data := by
  intro n
  induction n with
  | zero => intro a c l gen buf _ _ _ o ho; simp [readAll] at ho
  | succ n ih =>
    intro a c l gen buf ha hc hl o ho
    cases l with
    | nil =>
      have hall : ∀ s ∈ a ++ (⟨[], none⟩ : Stream) :: c, s.empty := by
        intro s hs
        rcases List.mem_append.1 hs with hs | hs
        · exact ha s hs
        · rcases List.mem_cons.1 hs with rfl | hs
          · exact ⟨rfl, rfl⟩
          · exact hc s hs
      simp [readAll, next, peekAll_empty _ _ hall, best_empty _ _ hall] at ho
    | cons e l =>
      have hle := hl e (by simp)
      have hne : e.data.length ≠ 0 := by
        intro h; exact hle.2 (List.length_eq_zero_iff.1 h)
      have hpk := peekAll_append (⟨e :: l, none⟩ :: c) gen buf ha
      simp only [readAll, next] at ho
      rw [hpk] at ho
      simp only [peekAll, peekAll_empty _ _ hc] at ho
      rw [best_append _ _ _ ha] at ho
      simp only [best, best_empty _ _ hc, Nat.zero_add] at ho
      rcases List.mem_cons.1 ho with rfl | ho
      · simp only [load, hle.1]
        split
        · contradiction
        · split
          · simp [deref]
          · simp [deref]
      · have hmod : (a ++ (⟨l, some (e, (load gen buf e).2.2)⟩ : Stream) :: c).modify a.length Stream.taken
            = a ++ ⟨l, none⟩ :: c := by
          apply List.ext_getElem?
          intro j
          rw [List.getElem?_modify]
          rcases Nat.lt_trichotomy j a.length with hj | hj | hj
          · have : ¬ a.length = j := by omega
            simp [this, List.getElem?_append_left hj]
          · subst hj
            simp [Stream.taken]
          · have h1 : ¬ a.length = j := by omega
            obtain ⟨m, rfl⟩ : ∃ m, j = a.length + (m + 1) := ⟨j - a.length - 1, by omega⟩
            simp [h1, List.getElem?_append_right]
        rw [hmod] at ho
        exact ih a c l _ _ ha hc (fun e he => hl e (by simp [he])) o ho

/-- With entries in one file only, they come back as they are. -/
theorem ownBytes_single (files : List (List Rec)) (a c : List (List Rec)) (l : List Rec)
    (h : files = a ++ l :: c) (ha : ∀ f ∈ a, f = []) (hc : ∀ f ∈ c, f = [])
    (hl : ∀ e ∈ l, e.hdr.len = e.data.length ∧ e.data ≠ []) : OwnBytes files := by
  subst h
  intro o ho
  simp only [readFiles, openReader, List.map_append, List.map_cons] at ho
  refine readAll_single _ _ _ l 0 [] ?_ ?_ hl o ho
  · intro s hs
    obtain ⟨f, hf, rfl⟩ := List.mem_map.1 hs
    exact ⟨ha f hf, rfl⟩
  · intro s hs
    obtain ⟨f, hf, rfl⟩ := List.mem_map.1 hs
    exact ⟨hc f hf, rfl⟩

/-- Entries and items have tuples which are not empty. -/
def Filled (s : St) : Prop :=
  (∀ b, ∀ e ∈ s.file b, e.hdr.len = e.data.length ∧ e.data ≠ []) ∧
  (∀ b, ∀ it ∈ s.stk b, ∀ op k, it.cap = some (op, k) → k ≠ [])

theorem Filled.mono {s s' : St} (h : Filled s) (hf : s'.file = s.file)
    (hs : ∀ b, ∀ it ∈ s'.stk b, it ∈ s.stk b ∨ it.cap = none) : Filled s' := by
  refine ⟨by rw [hf]; exact h.1, ?_⟩
  intro b it hit op k hk
  rcases hs b it hit with h' | h'
  · exact h.2 b it h' op k hk
  · rw [h'] at hk; cases hk

theorem Filled.append {s : St} (h : Filled s) {b : Nat} {it it' : Item} {rest : List Item} {op : Op} {k : Key} {pd}
    (hs : s.stk b = it :: rest) (hk : k ≠ []) (hc : ∀ op' k', it'.cap = some (op', k') → k' ≠ []) :
    Filled { append s b it.loc op k with stk := set s.stk b (it' :: rest), pend := pd } := by
  constructor
  · intro b' e he
    simp only [Verif.Cic.append] at he
    by_cases hbb : b' = b
    · subst hbb
      rw [set_same] at he
      rcases List.mem_append.1 he with he | he
      · exact h.1 b' e he
      · simp at he; subst he; exact ⟨rfl, hk⟩
    · rw [set_other _ _ hbb] at he
      exact h.1 b' e he
  · intro b' i hi op' k' hk'
    by_cases hbb : b' = b
    · subst hbb
      simp only [set_same] at hi
      rcases List.mem_cons.1 hi with rfl | hi
      · exact hc op' k' hk'
      · exact h.2 b' i (by rw [hs]; simp [hi]) op' k' hk'
    · simp only [set_other _ _ hbb] at hi
      exact h.2 b' i hi op' k' hk'

theorem mem_set_cons {s : St} {b : Nat} {it : Item} {rest : List Item} (hc : it.cap = none)
    (hr : ∀ i ∈ rest, i ∈ s.stk b) : ∀ b', ∀ i ∈ set s.stk b (it :: rest) b', i ∈ s.stk b' ∨ i.cap = none := by
  intro b' i hi
  by_cases hbb : b' = b
  · subst hbb
    rw [set_same] at hi
    rcases List.mem_cons.1 hi with rfl | hi
    · exact .inr hc
    · exact .inl (hr i hi)
  · rw [set_other _ _ hbb] at hi
    exact .inl hi

theorem mem_set_sub {s : St} {b : Nat} {rest : List Item}
    (hr : ∀ i ∈ rest, i ∈ s.stk b) : ∀ b', ∀ i ∈ set s.stk b rest b', i ∈ s.stk b' ∨ i.cap = none := by
  intro b' i hi
  by_cases hbb : b' = b
  · subst hbb
    rw [set_same] at hi
    exact .inl (hr i hi)
  · rw [set_other _ _ hbb] at hi
    exact .inl hi

theorem step_filled {ix : Ix} (ha : ix.atts ≠ []) (hdel : ∀ r, ix.delKey r = some (ix.key r)) {s s' : St}
    (h : Filled s) {ev : Ev} (hst : step ix s ev = some s') : Filled s' := by
  have hkey : ∀ r, ix.key r ≠ [] := by
    intro r hr
    apply ha
    simpa [Ix.key, proj] using hr
  cases ev with
  | ins b r =>
    simp only [step] at hst
    split at hst <;> cases hst
    exact h.mono rfl (mem_set_cons rfl (fun _ hi => hi))
  | del b p =>
    simp only [step] at hst
    split at hst
    · cases hst
    · split at hst <;> cases hst
      exact h.mono rfl (mem_set_cons rfl (fun _ hi => hi))
  | upd b r =>
    simp only [step] at hst
    split at hst
    · cases hst
    · split at hst
      · cases hst
        split
        · exact h.mono rfl (mem_set_cons rfl (fun _ hi => hi))
        · exact h.mono rfl (mem_set_cons rfl (fun _ hi => hi))
      · cases hst
  | cap b =>
    simp only [step] at hst
    split at hst
    · next op row it rest hp hs =>
      cases hst
      have hkk : (if op = .ins then some (ix.key row) else ix.delKey row) = some (ix.key row) := by
        split
        · rfl
        · exact hdel row
      simp only [capture, hkk]
      refine h.append hs (hkey row) ?_
      intro op' k' hk'
      simp only [Option.some.injEq, Prod.mk.injEq] at hk'
      rw [← hk'.2]; exact hkey row
    · cases hst
  | undo b =>
    simp only [step, undo] at hst
    split at hst
    · next it rest hp hs =>
      split at hst
      · next op k hcap =>
        cases hst
        refine h.append hs (h.2 b it (by rw [hs]; simp) op k hcap) ?_
        intro op' k' hk'
        cases hk'
      · cases hst
        exact h.mono rfl (mem_set_sub (fun i hi => by rw [hs]; simp [hi]))
    · next it rest hp hs =>
      cases hst
      exact h.mono rfl (mem_set_sub (fun i hi => by rw [hs]; simp [hi]))
    · cases hst
  | fail b =>
    simp only [step] at hst
    split at hst
    · next it rest hp hs =>
      cases hst
      exact h.mono rfl (mem_set_sub (fun i hi => by rw [hs]; simp [hi]))
    · cases hst
  | commit b =>
    simp only [step] at hst
    split at hst <;> cases hst
    exact h.mono rfl (mem_set_sub (fun i hi => by simp at hi))
  | reopen b => simp only [step] at hst; cases hst; exact h.mono rfl (fun _ i hi => .inl hi)
  | read p =>
    simp only [step] at hst
    split at hst <;> cases hst
    · exact h
    · exact h.mono rfl (fun _ i hi => .inl hi)

theorem run_filled {ix : Ix} (ha : ix.atts ≠ []) (hdel : ∀ r, ix.delKey r = some (ix.key r)) :
    ∀ {evs : List Ev} {s s' : St}, Filled s → run ix s evs = some s' → Filled s' := by
  intro evs
  induction evs with
  | nil => intro s s' h hr; simp only [run] at hr; cases hr; exact h
  | cons ev evs ih =>
    intro s s' h hr
    simp only [run] at hr
    split at hr
    · cases hr
    · next s1 hs => exact ih (step_filled ha hdel h hs) hr

/-- One process has written. -/
theorem ownBytes_one {s : St} (h : Filled s) {B : Nat} (hB : ∀ b, b ≠ B → s.file b = []) {dir : List Nat}
    (hnd : dir.Nodup) : OwnBytes (dir.map s.file) := by
  by_cases hm : B ∈ dir
  · obtain ⟨a, c, rfl⟩ := List.append_of_mem hm
    have hnd' := List.nodup_append.1 hnd
    refine ownBytes_single _ (a.map s.file) (c.map s.file) (s.file B) (by simp) ?_ ?_ (h.1 B)
    · intro f hf
      obtain ⟨b, hb, rfl⟩ := List.mem_map.1 hf
      exact hB b (fun e => hnd'.2.2 b hb B (by simp) e)
    · intro f hf
      obtain ⟨b, hb, rfl⟩ := List.mem_map.1 hf
      refine hB b (fun e => ?_)
      rw [e] at hb
      exact (List.nodup_cons.1 hnd'.2.1).1 hb
  · have hnil : ∀ f ∈ dir.map s.file, f = [] := by
      intro f hf
      obtain ⟨b, hb, rfl⟩ := List.mem_map.1 hf
      exact hB b (fun e => hm (e ▸ hb))
    intro o ho
    have hmg := readFiles_merge (dir.map s.file)
    obtain ⟨l, hl⟩ := hmg.valid (o.file, o.src) (List.mem_map.2 ⟨o, ho, rfl⟩)
    have := hmg.file _ _ hl
    rw [hnil l (List.mem_of_getElem? hl)] at this
    have hmem : o.src ∈ ofFile o.file ((readFiles (dir.map s.file)).map (fun o => (o.file, o.src))) := by
      simp only [ofFile, List.mem_map, List.mem_filter]
      exact ⟨(o.file, o.src), ⟨⟨o, ho, rfl⟩, by simp⟩, rfl⟩
    rw [this] at hmem
    simp at hmem

end Verif.Cic
