import Verif.Cic.Spool

/-! # The order in which the entries of the spool are read -/

namespace Verif.Cic

/-- What of a file is not returned yet. -/
def Stream.full (s : Stream) : List Rec := (s.peek.toList.map (·.1)) ++ s.rest

theorem peekAll_spec : ∀ (ss : List Stream) gen buf,
    (peekAll gen buf ss).2.2.map Stream.full = ss.map Stream.full ∧
    (∀ s ∈ (peekAll gen buf ss).2.2, s.peek = none → s.full = []) := by
  intro ss
  induction ss with
  | nil => intro gen buf; simp [peekAll]
  | cons s ss ih =>
    intro gen buf
    obtain ⟨rest, pk⟩ := s
    cases pk with
    | none =>
      cases rest with
      | nil =>
        simp only [peekAll]
        have h := ih gen buf
        refine ⟨by simp [h.1], ?_⟩
        intro s hs hp
        rcases List.mem_cons.1 hs with rfl | hs
        · simp [Stream.full]
        · exact h.2 s hs hp
      | cons e rest =>
        simp only [peekAll]
        have h := ih (load gen buf e).1 (load gen buf e).2.1
        refine ⟨by simp [h.1, Stream.full], ?_⟩
        intro s hs hp
        rcases List.mem_cons.1 hs with rfl | hs
        · simp at hp
        · exact h.2 s hs hp
    | some q =>
      have h := ih gen buf
      have he : peekAll gen buf (⟨rest, some q⟩ :: ss)
          = ((peekAll gen buf ss).1, (peekAll gen buf ss).2.1, ⟨rest, some q⟩ :: (peekAll gen buf ss).2.2) := by
        cases rest <;> simp [peekAll]
      rw [he]
      refine ⟨by simp [h.1], ?_⟩
      intro s hs hp
      rcases List.mem_cons.1 hs with rfl | hs
      · simp at hp
      · exact h.2 s hs hp

/-- `better` never takes a higher position. -/
theorem better_pos {a b : Hdr} (h : better a b = true) : a.pos ≤ b.pos := by
  simp only [better, Bool.or_eq_true, decide_eq_true_eq, Bool.and_eq_true, beq_iff_eq] at h
  omega

theorem not_better_pos {a b : Hdr} (h : ¬ better a b = true) : b.pos ≤ a.pos := by
  simp only [better, Bool.or_eq_true, decide_eq_true_eq, Bool.and_eq_true, beq_iff_eq] at h
  omega

theorem best_spec : ∀ (ss pre : List Stream) (acc : Option (Nat × Rec × Option Nat)),
    (∀ a, acc = some a → ∃ s, pre[a.1]? = some s ∧ s.peek = some a.2) →
    (∀ a, acc = some a → ∀ s ∈ pre, ∀ e p, s.peek = some (e, p) → a.2.1.hdr.pos ≤ e.hdr.pos) →
    (acc = none → ∀ s ∈ pre, s.peek = none) →
    (∀ a, best pre.length acc ss = some a → ∃ s, (pre ++ ss)[a.1]? = some s ∧ s.peek = some a.2) ∧
    (∀ a, best pre.length acc ss = some a → ∀ s ∈ pre ++ ss, ∀ e p, s.peek = some (e, p) →
      a.2.1.hdr.pos ≤ e.hdr.pos) ∧
    (best pre.length acc ss = none → ∀ s ∈ pre ++ ss, s.peek = none) := by
  intro ss
  induction ss with
  | nil => intro pre acc h1 h2 h3; simp only [best, List.append_nil]; exact ⟨h1, h2, h3⟩
  | cons s ss ih =>
    intro pre acc h1 h2 h3
    have hlen : pre.length + 1 = (pre ++ [s]).length := by simp
    have happ : pre ++ s :: ss = (pre ++ [s]) ++ ss := by simp
    have hget : ∀ (i : Nat) x, pre[i]? = some x → (pre ++ [s])[i]? = some x := by
      intro i x hx
      rw [List.getElem?_append_left (by
        rcases Nat.lt_or_ge i pre.length with h | h
        · exact h
        · simp [List.getElem?_eq_none h] at hx)]
      exact hx
    have hlast : (pre ++ [s])[pre.length]? = some s := by simp
    rw [happ]
    cases hp : s.peek with
    | none =>
      have e1 : best pre.length acc (s :: ss) = best (pre ++ [s]).length acc ss := by
        rw [← hlen]; simp [best, hp]
      rw [e1]
      refine ih (pre ++ [s]) acc ?_ ?_ ?_
      · intro a ha
        obtain ⟨x, hx, hx'⟩ := h1 a ha
        exact ⟨x, hget _ _ hx, hx'⟩
      · intro a ha x hx e p hxp
        rcases List.mem_append.1 hx with hx | hx
        · exact h2 a ha x hx e p hxp
        · simp at hx; subst hx; rw [hp] at hxp; simp at hxp
      · intro ha x hx
        rcases List.mem_append.1 hx with hx | hx
        · exact h3 ha x hx
        · simp at hx; subst hx; exact hp
    | some q =>
      obtain ⟨e, p⟩ := q
      cases acc with
      | none =>
        have e1 : best pre.length none (s :: ss) = best (pre ++ [s]).length (some (pre.length, e, p)) ss := by
          rw [← hlen]; simp [best, hp]
        rw [e1]
        refine ih (pre ++ [s]) _ ?_ ?_ ?_
        · intro a ha
          cases ha
          exact ⟨s, hlast, hp⟩
        · intro a ha x hx e' p' hxp
          cases ha
          rcases List.mem_append.1 hx with hx | hx
          · rw [h3 rfl x hx] at hxp; simp at hxp
          · simp at hx; subst hx; rw [hp] at hxp; simp at hxp; simp [hxp.1]
        · intro ha; simp at ha
      | some a0 =>
        have e1 : best pre.length (some a0) (s :: ss)
            = best (pre ++ [s]).length (if better e.hdr a0.2.1.hdr then some (pre.length, e, p) else some a0) ss := by
          rw [← hlen]; simp [best, hp]
        rw [e1]
        by_cases hb : better e.hdr a0.2.1.hdr = true
        · rw [if_pos hb]
          refine ih (pre ++ [s]) _ ?_ ?_ ?_
          · intro a ha
            cases ha
            exact ⟨s, hlast, hp⟩
          · intro a ha x hx e' p' hxp
            cases ha
            rcases List.mem_append.1 hx with hx | hx
            · exact Nat.le_trans (better_pos hb) (h2 a0 rfl x hx e' p' hxp)
            · simp at hx; subst hx; rw [hp] at hxp; simp at hxp; simp [hxp.1]
          · intro ha; simp at ha
        · rw [if_neg hb]
          refine ih (pre ++ [s]) _ ?_ ?_ ?_
          · intro a ha
            obtain ⟨x, hx, hx'⟩ := h1 a ha
            exact ⟨x, hget _ _ hx, hx'⟩
          · intro a ha x hx e' p' hxp
            cases ha
            rcases List.mem_append.1 hx with hx | hx
            · exact h2 a0 rfl x hx e' p' hxp
            · simp at hx; subst hx; rw [hp] at hxp; simp at hxp; rw [← hxp.1]; exact not_better_pos hb
          · intro ha; simp at ha

/-- What the next entry is: the first one not yet returned of its file, and no file has a lower one. -/
theorem next_some {r r' : Reader} {o : Out} (h : next r = some (o, r')) :
    ∃ t, (r.streams.map Stream.full)[o.file]? = some (o.src :: t) ∧
      r'.streams.map Stream.full = (r.streams.map Stream.full).set o.file t ∧
      ∀ (j : Nat) e t', (r.streams.map Stream.full)[j]? = some (e :: t') → o.src.hdr.pos ≤ e.hdr.pos := by
  have hpk := peekAll_spec r.streams r.gen r.buf
  simp only [next] at h
  generalize peekAll r.gen r.buf r.streams = q at h hpk
  have hb := best_spec q.2.2 [] none (by simp) (by simp) (by simp)
  simp only [List.length_nil, List.nil_append] at hb
  cases hbest : best 0 none q.2.2 with
  | none => simp [hbest] at h
  | some a =>
    obtain ⟨i, e, p⟩ := a
    simp only [hbest, Option.some.injEq, Prod.mk.injEq] at h
    obtain ⟨ho, hr⟩ := h
    subst ho; subst hr
    obtain ⟨s, hs, hsp⟩ := hb.1 _ hbest
    simp only at hs hsp
    refine ⟨s.rest, ?_, ?_, ?_⟩
    · rw [← hpk.1, List.getElem?_map, hs]
      simp [Stream.full, hsp]
    · simp only
      rw [← hpk.1]
      apply List.ext_getElem?
      intro j
      simp only [List.getElem?_map, List.getElem?_modify, List.getElem?_set, List.length_map]
      by_cases hij : i = j
      · subst hij
        have hlt : i < q.2.2.length := by
          rcases Nat.lt_or_ge i q.2.2.length with h | h
          · exact h
          · simp [List.getElem?_eq_none h] at hs
        simp only [hs, hlt, if_true, Option.map_some]
        simp [Stream.full, Stream.taken]
      · simp [hij]
    · intro j e' t' hj
      rw [← hpk.1, List.getElem?_map] at hj
      cases hsj : q.2.2[j]? with
      | none => simp [hsj] at hj
      | some sj =>
        simp only [hsj, Option.map_some, Option.some.injEq] at hj
        have hmem := List.mem_of_getElem? hsj
        cases hpj : sj.peek with
        | none => rw [hpk.2 sj hmem hpj] at hj; simp at hj
        | some w =>
          have := hb.2.1 _ hbest sj hmem w.1 w.2 hpj
          simp [Stream.full, hpj] at hj
          rw [← hj.1]; exact this

theorem next_none {r : Reader} (h : next r = none) : ∀ l ∈ r.streams.map Stream.full, l = [] := by
  have hpk := peekAll_spec r.streams r.gen r.buf
  simp only [next] at h
  generalize peekAll r.gen r.buf r.streams = q at h hpk
  have hb := best_spec q.2.2 [] none (by simp) (by simp) (by simp)
  simp only [List.length_nil, List.nil_append] at hb
  cases hbest : best 0 none q.2.2 with
  | some a => simp [hbest] at h
  | none =>
    intro l hl
    rw [← hpk.1] at hl
    obtain ⟨s, hs, rfl⟩ := List.mem_map.1 hl
    exact hpk.2 s hs (hb.2.2 hbest s hs)

/-- The entries of some files, taken in turn by position. -/
inductive Merge : List (List Rec) → List (Nat × Rec) → Prop
  | nil {ls} : (∀ l ∈ ls, l = []) → Merge ls []
  | cons {ls : List (List Rec)} {i e t out} : ls[i]? = some (e :: t) →
      (∀ (j : Nat) e' t', ls[j]? = some (e' :: t') → e.hdr.pos ≤ e'.hdr.pos) →
      Merge (ls.set i t) out → Merge ls ((i, e) :: out)

theorem sum_set : ∀ (ls : List (List Rec)) (i : Nat) e t, ls[i]? = some (e :: t) →
    ((ls.set i t).map List.length).sum + 1 = (ls.map List.length).sum := by
  intro ls
  induction ls with
  | nil => intro i e t h; simp at h
  | cons l ls ih =>
    intro i e t h
    cases i with
    | zero => simp at h; subst h; simp; omega
    | succ i =>
      have := ih i e t (by simpa using h)
      simp only [List.set_cons_succ, List.map_cons, List.sum_cons]
      omega

theorem readAll_merge : ∀ (n : Nat) (r : Reader), ((r.streams.map Stream.full).map List.length).sum < n →
    Merge (r.streams.map Stream.full) ((readAll n r).map (fun o => (o.file, o.src))) := by
  intro n
  induction n with
  | zero => intro r h; omega
  | succ n ih =>
    intro r h
    simp only [readAll]
    cases hn : next r with
    | none => exact .nil (next_none hn)
    | some q =>
      obtain ⟨o, r'⟩ := q
      obtain ⟨t, h1, h2, h3⟩ := next_some hn
      have hs := sum_set _ _ _ _ h1
      simp only [List.map_cons]
      refine .cons h1 h3 ?_
      rw [← h2]
      apply ih
      rw [h2]; omega

theorem readFiles_merge (files : List (List Rec)) :
    Merge files ((readFiles files).map (fun o => (o.file, o.src))) := by
  have he : (openReader files).streams.map Stream.full = files := by
    simp only [openReader, List.map_map]
    conv => rhs; rw [← List.map_id files]
    apply List.map_congr_left
    intro l _
    simp [Stream.full]
  have h := readAll_merge ((files.map List.length).sum + 1) (openReader files) (by rw [he]; omega)
  rw [he] at h
  exact h

/-- The entries of one file among those read. -/
def ofFile (i : Nat) (out : List (Nat × Rec)) : List Rec := (out.filter (fun o => o.1 == i)).map (·.2)

theorem ofFile_cons_self (i : Nat) (e : Rec) (out) : ofFile i ((i, e) :: out) = e :: ofFile i out := by
  simp [ofFile]

theorem ofFile_cons_ne {i j : Nat} (h : i ≠ j) (e : Rec) (out) : ofFile j ((i, e) :: out) = ofFile j out := by
  simp [ofFile, h]

theorem ofFile_append (i : Nat) (a b) : ofFile i (a ++ b) = ofFile i a ++ ofFile i b := by
  simp [ofFile]

theorem Merge.file {ls out} (h : Merge ls out) : ∀ (i : Nat) l, ls[i]? = some l → ofFile i out = l := by
  induction h with
  | nil h0 =>
    intro i l hl
    rw [h0 l (List.mem_of_getElem? hl)]; rfl
  | @cons ls i e t out h1 _ _ ih =>
    intro j l hl
    by_cases hij : i = j
    · subst hij
      rw [h1] at hl
      cases hl
      rw [ofFile_cons_self]
      have hlt : i < ls.length := by
        rcases Nat.lt_or_ge i ls.length with h | h
        · exact h
        · simp [List.getElem?_eq_none h] at h1
      rw [ih i t (by simp [List.getElem?_set, hlt])]
    · rw [ofFile_cons_ne hij]
      exact ih j l (by simp [List.getElem?_set, hij, hl])

theorem Merge.valid {ls out} (h : Merge ls out) : ∀ o ∈ out, ∃ l, ls[o.1]? = some l := by
  induction h with
  | nil _ => simp
  | @cons ls i e t out h1 _ _ ih =>
    intro o ho
    rcases List.mem_cons.1 ho with rfl | ho
    · exact ⟨_, h1⟩
    · obtain ⟨l, hl⟩ := ih o ho
      rw [List.getElem?_set] at hl
      by_cases hij : i = o.1
      · exact ⟨_, hij ▸ h1⟩
      · simp [hij] at hl
        exact ⟨l, hl⟩

/-- If all entries up to one of file `A` are below an entry of file `B`, they are read before it. -/
theorem Merge.before {ls out} (h : Merge ls out) {A B : Nat} (hAB : A ≠ B) :
    ∀ {u e1 v x f y}, ls[A]? = some (u ++ e1 :: v) → ls[B]? = some (x ++ f :: y) →
    (∀ e ∈ u ++ [e1], e.hdr.pos < f.hdr.pos) →
    ∀ l1 l2, out = l1 ++ l2 → x.length < (ofFile B l1).length → u.length < (ofFile A l1).length := by
  induction h with
  | nil h0 =>
    intro u e1 v x f y hA
    have := h0 _ (List.mem_of_getElem? hA)
    simp at this
  | @cons ls i e t out h1 h2 _ ih =>
    intro u e1 v x f y hA hB hlt l1 l2 hout hx
    have hi : i < ls.length := by
      rcases Nat.lt_or_ge i ls.length with h | h
      · exact h
      · simp [List.getElem?_eq_none h] at h1
    cases l1 with
    | nil => simp [ofFile] at hx
    | cons o l1 =>
      simp only [List.cons_append, List.cons.injEq] at hout
      obtain ⟨rfl, hout⟩ := hout
      by_cases hiA : i = A
      · subst hiA
        rw [ofFile_cons_self]
        rw [ofFile_cons_ne hAB] at hx
        cases u with
        | nil => simp
        | cons a u =>
          rw [h1] at hA
          simp only [List.cons_append, Option.some.injEq, List.cons.injEq] at hA
          have := ih (u := u) (e1 := e1) (v := v) (x := x) (f := f) (y := y)
            (by rw [List.getElem?_set]; simp [hi, hA.2]) (by rw [List.getElem?_set]; simp [hAB, hB])
            (fun e he => hlt e (List.mem_cons_of_mem _ he)) l1 l2 hout hx
          simp only [List.length_cons]; omega
      · by_cases hiB : i = B
        · subst hiB
          rw [ofFile_cons_ne hiA]
          rw [ofFile_cons_self] at hx
          cases x with
          | nil =>
            exfalso
            rw [h1] at hB
            simp only [List.nil_append, Option.some.injEq, List.cons.injEq] at hB
            cases u with
            | nil =>
              have a1 := h2 A _ _ hA
              have a2 := hlt e1 (by simp)
              rw [hB.1] at a1; omega
            | cons a u =>
              have a1 := h2 A _ _ hA
              have a2 := hlt a (by simp)
              rw [hB.1] at a1; omega
          | cons a x =>
            rw [h1] at hB
            simp only [List.cons_append, Option.some.injEq, List.cons.injEq] at hB
            refine ih (u := u) (e1 := e1) (v := v) (x := x) (f := f) (y := y)
              (by rw [List.getElem?_set]; simp [hiA, hA])
              (by rw [List.getElem?_set]; simp [hi, hB.2]) hlt l1 l2 hout ?_
            simp only [List.length_cons] at hx; omega
        · rw [ofFile_cons_ne hiA]
          rw [ofFile_cons_ne hiB] at hx
          exact ih (u := u) (e1 := e1) (v := v) (x := x) (f := f) (y := y)
            (by rw [List.getElem?_set]; simp [hiA, hA]) (by rw [List.getElem?_set]; simp [hiB, hB])
            hlt l1 l2 hout hx

theorem ofFile_split (i : Nat) : ∀ (out : List (Nat × Rec)) (x : List Rec) e y, ofFile i out = x ++ e :: y →
    ∃ l1 l2, out = l1 ++ (i, e) :: l2 ∧ ofFile i l1 = x ∧ ofFile i l2 = y := by
  intro out
  induction out with
  | nil => intro x e y h; simp [ofFile] at h
  | cons o out ih =>
    intro x e y h
    obtain ⟨j, e'⟩ := o
    by_cases hji : j = i
    · subst hji
      rw [ofFile_cons_self] at h
      cases x with
      | nil =>
        simp at h
        exact ⟨[], out, by simp [h.1], by simp [ofFile], h.2⟩
      | cons a x =>
        simp at h
        obtain ⟨l1, l2, h1, h2, h3⟩ := ih x e y h.2
        exact ⟨(j, e') :: l1, l2, by simp [h1], by rw [ofFile_cons_self, h2, h.1], h3⟩
    · rw [ofFile_cons_ne hji] at h
      obtain ⟨l1, l2, h1, h2, h3⟩ := ih x e y h
      exact ⟨(j, e') :: l1, l2, by simp [h1], by rw [ofFile_cons_ne hji, h2], h3⟩

/-- The entry which is read last among those with a property. -/
theorem Merge.last {ls out} (h : Merge ls out) (P : Rec → Prop) {B : Nat} {x' e y'}
    (hB : ls[B]? = some (x' ++ e :: y')) (hy : ∀ e' ∈ y', ¬ P e')
    (hc : ∀ (A : Nat) u e1 v, A ≠ B → ls[A]? = some (u ++ e1 :: v) → P e1 →
      ∃ x f y, x' ++ e :: y' = x ++ f :: y ∧ x.length ≤ x'.length ∧ ∀ e' ∈ u ++ [e1], e'.hdr.pos < f.hdr.pos) :
    ∃ l1 l2, out = l1 ++ (B, e) :: l2 ∧ ∀ o ∈ l2, ¬ P o.2 := by
  obtain ⟨l1, l2, hout, h1, h2⟩ := ofFile_split B out x' e y' (h.file B _ hB)
  refine ⟨l1, l2, hout, ?_⟩
  intro o ho hP
  obtain ⟨A, e1⟩ := o
  by_cases hAB : A = B
  · subst hAB
    refine hy e1 ?_ hP
    rw [← h2]
    simp only [ofFile, List.mem_map, List.mem_filter]
    exact ⟨(A, e1), ⟨ho, by simp⟩, rfl⟩
  · obtain ⟨m1, m2, rfl⟩ := List.append_of_mem ho
    obtain ⟨l, hl⟩ := h.valid (A, e1) (by rw [hout]; simp)
    have hf := h.file A l hl
    have hu : l = ofFile A (l1 ++ (B, e) :: m1) ++ e1 :: ofFile A m2 := by
      rw [← hf, hout]
      simp only [ofFile_append, ofFile_cons_ne (Ne.symm hAB), ofFile_cons_self, List.append_assoc]
    rw [hu] at hl
    obtain ⟨x, f, y, hx, hxl, hlt⟩ := hc A _ e1 _ hAB hl hP
    rw [hx] at hB
    have := h.before hAB hl hB hlt (l1 ++ [(B, e)]) (m1 ++ (A, e1) :: m2) (by rw [hout]; simp)
      (by rw [ofFile_append, ofFile_cons_self, h1]; simp; omega)
    rw [ofFile_append, ofFile_append, ofFile_cons_ne (Ne.symm hAB), ofFile_cons_ne (Ne.symm hAB)] at this
    simp [ofFile] at this
    omega

end Verif.Cic
