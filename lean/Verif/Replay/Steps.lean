/-
Subtransactions and ends of transactions keep the relation.
-/
import Verif.Replay.Sim

namespace Verif.Replay

theorem wrote_cons {t t' : Tx} {pk : Nat} (h : t'.subs.map (·.2 pk) = t.subs.map (·.2 pk))
    (ho : t'.outer pk = t.outer pk) : t'.wrote pk = t.wrote pk := by
  unfold Tx.wrote Tx.frames
  rw [List.findSome?_append, List.findSome?_append, List.findSome?_map, List.findSome?_map]
  have h1 : ∀ (l : List (Nat × Frame)), List.findSome? ((fun x : Frame => x pk) ∘ fun x => x.2) l =
      List.findSome? id (l.map (·.2 pk)) := by
    intro l
    rw [List.findSome?_map]
    rfl
  rw [h1, h1, h]
  simp [ho]

/-- The beginning of a subtransaction. -/
theorem Inv.sub {P p st m} (h : Inv P p st m) {x : Nat} (hx : p.fin x = false) :
    Inv P { p with tx := upd p.tx x { p.tx x with subs := ((p.tx x).cur, noFrame) :: (p.tx x).subs,
                                                  cur := (p.tx x).cnt + 1, cnt := (p.tx x).cnt + 1 } }
      { st with sps := upd st.sps x (((p.tx x).cur, st.next) :: st.sps x), next := st.next + 1 }
      (upd m x (false :: m x)) := by
  refine ⟨h.doneFin, h.good, ?_, h.cur, h.base, ?_, h.ownFin, ?_⟩
  · intro pk s v hv
    exact Nat.lt_succ_of_lt (h.stamp pk s v hv)
  · intro y hy pk hw
    apply h.own y hy pk
    intro hn
    apply hw
    show (upd p.tx x _ y).wrote pk = none
    unfold upd
    split
    · next he =>
      rw [he] at hn
      have := wrote_none.mp hn
      rw [wrote_none]
      refine ⟨?_, this.2⟩
      intro q hq
      rcases List.mem_cons.mp hq with rfl | hq
      · rfl
      · exact this.1 q hq
    · exact hn
  · intro y hy
    obtain ⟨os, h1, h2, h3⟩ := h.lev y hy
    by_cases he : y = x
    · subst he
      refine ⟨((p.tx y).cur, st.next) :: os, ⟨Nat.le_succ _, h1⟩, ?_, ?_⟩
      · show Linked (upd m y (false :: m y) y) _ (upd st.sps y _ y)
        unfold upd
        simp only [if_true]
        exact ⟨[], st.sps y, rfl, fun _ => rfl, h2⟩
      · intro pk
        show Agree P y pk (upd p.tx y _ y).outer (st.rows pk) (upd p.tx y _ y).subs _
        unfold upd
        simp only [if_true]
        have hc : cutS y st.next (st.rows pk) = st.rows pk := by
          funext s
          apply dropWhile_eq_self
          intro v hv
          have := h.stamp pk s v hv
          simp
          intro _
          omega
        refine ⟨rfl, fun _ => hc, ?_, ?_, ?_⟩
        · intro v hv; cases hv
        · rw [hc]; exact h.cur pk
        · rw [hc]; exact h3 pk
    · refine ⟨os, h1.mono (Nat.le_succ _), ?_, ?_⟩
      · show Linked (upd m x _ y) _ (upd st.sps x _ y)
        unfold upd
        simp only [if_neg he]
        exact h2
      · intro pk
        show Agree P y pk (upd p.tx x _ y).outer (st.rows pk) (upd p.tx x _ y).subs os
        unfold upd
        simp only [if_neg he]
        exact h3 pk

theorem over_none {f g : Frame} {pk : Nat} (h : over f g pk = none) : f pk = none ∧ g pk = none := by
  unfold over at h
  cases hf : f pk with
  | none => rw [hf] at h; exact ⟨rfl, h⟩
  | some v => rw [hf] at h; cases h

theorem over_none' {f g : Frame} {pk : Nat} (h : f pk = none) (h' : g pk = none) :
    over f g pk = none := by
  unfold over; rw [h, h']; rfl

/-- The release of the only subtransaction. -/
theorem Inv.release1 {P p st m} (h : Inv P p st m) {x q : Nat} {f : Frame} (hx : p.fin x = false)
    (hs : (p.tx x).subs = [(q, f)]) (bs : List Bool) (hbs : bs = []) :
    Inv P { p with tx := upd p.tx x { p.tx x with outer := over f (p.tx x).outer, subs := [],
                                                  cur := q } } st (upd m x bs) := by
  refine ⟨h.doneFin, h.good, h.stamp, h.cur, h.base, ?_, h.ownFin, ?_⟩
  · intro y hy pk hw
    apply h.own y hy pk
    intro hn
    apply hw
    show (upd p.tx x _ y).wrote pk = none
    unfold upd
    split
    · next he =>
      rw [he] at hn
      have := wrote_none.mp hn
      rw [wrote_none]
      refine ⟨(by intro q hq; cases hq), ?_⟩
      rw [hs] at this
      exact over_none' (this.1 _ List.mem_cons_self) this.2
    · exact hn
  · intro y hy
    obtain ⟨os, h1, h2, h3⟩ := h.lev y hy
    by_cases he : y = x
    · subst he
      refine ⟨[], trivial, ?_, ?_⟩
      · show Linked (upd m y bs y) _ _
        unfold upd
        simp only [if_true]
        rw [hbs]
        exact trivial
      · intro pk
        show Agree P y pk (upd p.tx y _ y).outer (st.rows pk) (upd p.tx y _ y).subs _
        unfold upd
        simp only [if_true]
        have h4 := h3 pk
        rw [hs] at h4
        match os, h1, h2, h4 with
        | [(q', n)], h1, h2, h4 =>
          obtain ⟨-, h5, h6, h7, h8, h9⟩ := h4
          refine ⟨?_, ?_⟩
          · intro hn
            obtain ⟨hf, hg⟩ := over_none hn
            have := h8 hg
            rw [h5 hf] at this
            exact this
          · intro v hv
            unfold over at hv
            cases hf : f pk with
            | none =>
              rw [hf] at hv
              have := h9 v hv
              rw [h5 hf] at this
              exact this
            | some w =>
              rw [hf] at hv
              cases hv
              exact h6 _ hf
        | [], _, _, h4 => exact h4.elim
        | _ :: _ :: _, _, _, h4 => exact h4.2.2.2.2.elim
    · refine ⟨os, h1, ?_, ?_⟩
      · show Linked (upd m x _ y) _ _
        unfold upd
        simp only [if_neg he]
        exact h2
      · intro pk
        show Agree P y pk (upd p.tx x _ y).outer (st.rows pk) (upd p.tx x _ y).subs os
        unfold upd
        simp only [if_neg he]
        exact h3 pk

/-- The release of a subtransaction within another. -/
theorem Inv.release2 {P p st m} (h : Inv P p st m) {x q q' : Nat} {f g : Frame}
    {ss : List (Nat × Frame)} (hx : p.fin x = false)
    (hs : (p.tx x).subs = (q, f) :: (q', g) :: ss) (bs : List Bool)
    (hbs : ∀ b b' bs', m x = b :: b' :: bs' → bs = true :: bs') :
    Inv P { p with tx := upd p.tx x { p.tx x with subs := (q', over f g) :: ss, cur := q } }
      st (upd m x bs) := by
  refine ⟨h.doneFin, h.good, h.stamp, h.cur, h.base, ?_, h.ownFin, ?_⟩
  · intro y hy pk hw
    apply h.own y hy pk
    intro hn
    apply hw
    show (upd p.tx x _ y).wrote pk = none
    unfold upd
    split
    · next he =>
      rw [he] at hn
      have := wrote_none.mp hn
      rw [wrote_none]
      refine ⟨?_, this.2⟩
      rw [hs] at this
      intro r hr
      rcases List.mem_cons.mp hr with rfl | hr
      · exact over_none' (this.1 _ List.mem_cons_self)
          (this.1 _ (List.mem_cons_of_mem _ List.mem_cons_self))
      · exact this.1 r (List.mem_cons_of_mem _ (List.mem_cons_of_mem _ hr))
    · exact hn
  · intro y hy
    obtain ⟨os, h1, h2, h3⟩ := h.lev y hy
    by_cases he : y = x
    · subst he
      have h4 := h3
      rw [hs] at h4
      match os, h1, h2, h4 with
      | (a, n) :: (a', n') :: os, h1, h2, h4 =>
        refine ⟨(a', n') :: os, ⟨Nat.le_trans h1.2.1 h1.1, h1.2.2⟩, ?_, ?_⟩
        · show Linked (upd m y bs y) _ _
          unfold upd
          simp only [if_true]
          cases hm : m y with
          | nil => rw [hm] at h2; exact h2.elim
          | cons b ms =>
            cases ms with
            | nil =>
              rw [hm] at h2
              obtain ⟨ex, rest, -, -, h5⟩ := h2
              exact h5.elim
            | cons b' ms =>
              rw [hbs _ _ _ hm]
              rw [hm] at h2
              obtain ⟨ex, rest, h5, -, ex', rest', h6, -, h7⟩ := h2
              refine ⟨ex ++ (a, n) :: ex', rest', ?_, (by intro hc; cases hc), h7⟩
              rw [h5, h6]
              simp
        · intro pk
          show Agree P y pk (upd p.tx y _ y).outer (st.rows pk) (upd p.tx y _ y).subs _
          unfold upd
          simp only [if_true]
          obtain ⟨-, h5, h6, h7, h8, h9, h10, h11, h12⟩ := h4 pk
          have hcc : cutS y n' (cutS y n (st.rows pk)) = cutS y n' (st.rows pk) :=
            cutS_cutS h1.2.1 _
          rw [hcc] at h11 h12
          refine ⟨h8, ?_, ?_, h11, h12⟩
          · intro hn
            obtain ⟨hf, hg⟩ := over_none hn
            have := h9 hg
            rw [h5 hf] at this
            exact this
          · intro v hv
            unfold over at hv
            cases hf : f pk with
            | none =>
              rw [hf] at hv
              have := h10 v hv
              rw [h5 hf] at this
              exact this
            | some w =>
              rw [hf] at hv
              cases hv
              exact h6 _ hf
      | [], _, _, h4 => exact (h4 0).elim
      | [(a, n)], _, _, h4 => exact (h4 0).2.2.2.2.elim
    · refine ⟨os, h1, ?_, ?_⟩
      · show Linked (upd m x _ y) _ _
        unfold upd
        simp only [if_neg he]
        exact h2
      · intro pk
        show Agree P y pk (upd p.tx x _ y).outer (st.rows pk) (upd p.tx x _ y).subs os
        unfold upd
        simp only [if_neg he]
        exact h3 pk

/-- Another transaction after versions of `x` were taken out. -/
theorem agree_after_cut {P p st m} (h : Inv P p st m) {x y n pk : Nat} (hx : p.fin x = false)
    (hy : p.fin y = false) (hne : y ≠ x) (hP : P (cutS x n (st.rows pk))) {os : List (Nat × Nat)}
    (ha : Agree P y pk (p.tx y).outer (st.rows pk) (p.tx y).subs os) :
    Agree P y pk (p.tx y).outer (cutS x n (st.rows pk)) (p.tx y).subs os := by
  by_cases ho : p.owner pk = some x
  · have hnw : (p.tx y).wrote pk = none := by
      apply Classical.byContradiction
      intro hc
      have := h.own y hy pk hc
      rw [ho] at this
      cases this
      exact hne rfl
    have hnw := wrote_none.mp hnw
    refine Agree.idle (st0 := st.rows pk) hP ?_ _ _ _ ha hnw.1 hnw.2
    intro s v hv
    have hg := h.good pk s
    refine hg.absent (h.doneFin y hy) ?_ v ((List.dropWhile_suffix _).mem hv)
    rw [ho]
    intro hc
    cases hc
    exact hne rfl
  · rw [cutS_absent fun s => (h.good pk s).absent (h.doneFin x hx) ho]
    exact ha

/-- The rollback of a subtransaction. -/
theorem Inv.rollback {P p st m} (h : Inv P p st m) {x q : Nat} {f : Frame} {ss : List (Nat × Frame)}
    (hx : p.fin x = false) (hs : (p.tx x).subs = (q, f) :: ss) (hm : (m x).head? = some false) :
    Inv P { p with tx := upd p.tx x { p.tx x with subs := ss, cur := q },
                   owner := p.unlock x { p.tx x with subs := ss, cur := q } }
      { st with rows := fun pk s => cut x (target q (st.sps x)).1 (st.rows pk s),
                sps := upd st.sps x (target q (st.sps x)).2, next := st.next + 1 }
      (upd m x (m x).tail) := by
  have hd := h.doneFin x hx
  obtain ⟨os, h1, h2, h3⟩ := h.lev x hx
  cases hmx : m x with
  | nil => rw [hmx] at hm; cases hm
  | cons b bs =>
  rw [hmx] at hm
  simp at hm
  subst hm
  rw [hs] at h3
  match os, h1, h2, h3 with
  | [], _, _, h3 => exact (h3 0).elim
  | (q', n) :: os, h1, h2, h3 =>
  rw [hmx] at h2
  obtain ⟨ex, rest, h4, h5, h6⟩ := h2
  rw [h5 rfl, List.nil_append] at h4
  have hq : q' = q := (h3 0).1
  have ht : target q (st.sps x) = (n, rest) := by
    rw [h4, ← hq]
    simp [target]
  simp only [ht]
  have hP : ∀ pk, P (cutS x n (st.rows pk)) := fun pk => (h3 pk).2.2.2.1
  have hA : ∀ pk, Agree P x pk (p.tx x).outer (cutS x n (st.rows pk)) ss os :=
    fun pk => (h3 pk).2.2.2.2
  have hset : ∀ pk s, settled st.done (cut x n (st.rows pk s)) = settled st.done (st.rows pk s) :=
    fun pk s => settled_cut hd _
  refine ⟨h.doneFin, ?_, ?_, hP, ?_, ?_, ?_, ?_⟩
  · intro pk s
    have hg : Good st.done (p.owner pk) (cut x n (st.rows pk s)) :=
      (h.good pk s).suffix (List.dropWhile_suffix _)
    show Good st.done (p.unlock x _ pk) (cut x n (st.rows pk s))
    unfold PSt.unlock
    split
    · next hc =>
      rw [hc.1] at hg
      refine hg.release hd ?_
      have hnw := wrote_none.mp hc.2
      exact congrFun (Agree.none _ _ _ (hA pk) hnw.1 hnw.2) s
    · exact hg
  · intro pk s v hv
    exact Nat.lt_succ_of_lt (h.stamp pk s v ((List.dropWhile_suffix _).mem hv))
  · intro pk
    have h7 := h.base pk
    refine ⟨?_, ?_⟩
    · have : settledS st.done (fun s => cut x n (st.rows pk s)) = settledS st.done (st.rows pk) := by
        funext s
        exact hset pk s
      show P (settledS st.done (fun s => cut x n (st.rows pk s)))
      rw [this]
      exact h7.1
    · show top (settled st.done (cut x n (st.rows pk .prim))) = p.base pk
      rw [hset]
      exact h7.2
  · intro y hy pk hw
    show p.unlock x { p.tx x with subs := ss, cur := q } pk = some y
    by_cases he : y = x
    · subst he
      change (upd p.tx y _ y).wrote pk ≠ none at hw
      unfold upd at hw
      simp only [if_true] at hw
      have ho : p.owner pk = some y := by
        apply h.own y hx pk
        intro hn
        apply hw
        have := wrote_none.mp hn
        rw [wrote_none]
        refine ⟨?_, this.2⟩
        intro r hr
        apply this.1
        rw [hs]
        exact List.mem_cons_of_mem _ hr
      unfold PSt.unlock
      rw [if_neg]
      · exact ho
      · intro hc; exact hw hc.2
    · change (upd p.tx x _ y).wrote pk ≠ none at hw
      unfold upd at hw
      rw [if_neg he] at hw
      have ho := h.own y hy pk hw
      unfold PSt.unlock
      rw [if_neg]
      · exact ho
      · intro hc
        rw [ho] at hc
        have := hc.1
        cases this
        exact he rfl
  · intro pk y hy
    change p.unlock x _ pk = some y at hy
    unfold PSt.unlock at hy
    split at hy
    · cases hy
    · exact h.ownFin pk y hy
  · intro y hy
    by_cases he : y = x
    · subst he
      refine ⟨os, (h1.2.mono h1.1).mono (Nat.le_succ _), ?_, ?_⟩
      · show Linked (upd m y _ y) _ (upd st.sps y _ y)
        unfold upd
        simp only [if_true, List.tail_cons]
        exact h6
      · intro pk
        show Agree P y pk (upd p.tx y _ y).outer (cutS y n (st.rows pk)) (upd p.tx y _ y).subs _
        unfold upd
        simp only [if_true]
        exact hA pk
    · obtain ⟨oy, hy1, hy2, hy3⟩ := h.lev y hy
      refine ⟨oy, hy1.mono (Nat.le_succ _), ?_, ?_⟩
      · show Linked (upd m x _ y) _ (upd st.sps x _ y)
        unfold upd
        simp only [if_neg he]
        exact hy2
      · intro pk
        show Agree P y pk (upd p.tx x _ y).outer (cutS x n (st.rows pk)) (upd p.tx x _ y).subs oy
        unfold upd
        simp only [if_neg he]
        exact agree_after_cut h hx hy he (hP pk) (hy3 pk)

theorem owner_commit {p : PSt} {x pk y : Nat}
    (h : (if p.owner pk = some x then none else p.owner pk) = some y) : p.owner pk = some y ∧ y ≠ x := by
  split at h
  · cases h
  · next hc => exact ⟨h, fun he => hc (by rw [h, he])⟩

/-- Commit. -/
theorem Inv.commit {P p st m} (h : Inv P p st m) {x : Nat} (hx : p.fin x = false) :
    Inv P { p with base := fun pk => p.look x pk, fin := upd p.fin x true,
                   owner := fun pk => if p.owner pk = some x then none else p.owner pk }
      { st with done := upd st.done x true, next := st.next + 1 } m := by
  have hd := h.doneFin x hx
  have hgood : ∀ pk s, Good (upd st.done x true)
      (if p.owner pk = some x then none else p.owner pk) (st.rows pk s) := by
    intro pk s
    split
    · next ho => exact (h.good pk s).commit ho
    · next ho => exact (h.good pk s).commit_other ho
  refine ⟨?_, hgood, ?_, h.cur, ?_, ?_, ?_, ?_⟩
  · intro y hy
    change upd p.fin x true y = false at hy
    show upd st.done x true y = false
    unfold upd at hy ⊢
    split at hy
    · cases hy
    · next he => rw [if_neg he]; exact h.doneFin y hy
  · intro pk s v hv
    exact Nat.lt_succ_of_lt (h.stamp pk s v hv)
  · intro pk
    show P (settledS (upd st.done x true) (st.rows pk)) ∧
      top (settled (upd st.done x true) (st.rows pk .prim)) = p.look x pk
    by_cases ho : p.owner pk = some x
    · have hs : ∀ s, settled (upd st.done x true) (st.rows pk s) = st.rows pk s := by
        intro s
        have := hgood pk s
        rw [if_pos ho] at this
        exact this.free
      have hs' : settledS (upd st.done x true) (st.rows pk) = st.rows pk := by
        funext s; exact hs s
      rw [hs', hs]
      exact ⟨h.cur pk, tops h hx (Or.inr ho)⟩
    · have hab : ∀ s, ∀ v ∈ st.rows pk s, v.xid ≠ x := fun s => (h.good pk s).absent hd ho
      have hs : ∀ s, settled (upd st.done x true) (st.rows pk s) = settled st.done (st.rows pk s) := by
        intro s
        have : ∀ c : Chain, (∀ v ∈ c, v.xid ≠ x) →
            settled (upd st.done x true) c = settled st.done c := by
          intro c
          induction c with
          | nil => intro _; rfl
          | cons v c ih =>
            intro hc
            have hv := hc v List.mem_cons_self
            have ih := ih fun w hw => hc w (List.mem_cons_of_mem _ hw)
            unfold settled at ih ⊢
            have he : upd st.done x true v.xid = st.done v.xid := by
              unfold upd
              rw [if_neg hv]
            cases hdv : st.done v.xid with
            | true =>
              rw [List.dropWhile_cons_of_neg (by rw [he, hdv]; simp),
                List.dropWhile_cons_of_neg (by rw [hdv]; simp)]
            | false =>
              rw [List.dropWhile_cons_of_pos (by rw [he, hdv]; simp),
                List.dropWhile_cons_of_pos (by rw [hdv]; simp)]
              exact ih
        exact this _ (hab s)
      have hs' : settledS (upd st.done x true) (st.rows pk) = settledS st.done (st.rows pk) := by
        funext s; exact hs s
      rw [hs', hs]
      have hnw : (p.tx x).wrote pk = none := by
        apply Classical.byContradiction
        intro hc
        exact ho (h.own x hx pk hc)
      unfold PSt.look
      rw [hnw, Option.getD_none]
      exact h.base pk
  · intro y hy pk hw
    change upd p.fin x true y = false at hy
    unfold upd at hy
    split at hy
    · cases hy
    · next he =>
      have := h.own y hy pk hw
      show (if p.owner pk = some x then none else p.owner pk) = some y
      rw [if_neg]
      · exact this
      · rw [this]; intro hc; cases hc; exact he rfl
  · intro pk y hy
    obtain ⟨h1, h2⟩ := owner_commit hy
    show upd p.fin x true y = false
    unfold upd
    rw [if_neg h2]
    exact h.ownFin pk y h1
  · intro y hy
    change upd p.fin x true y = false at hy
    unfold upd at hy
    split at hy
    · cases hy
    · obtain ⟨oy, hy1, hy2, hy3⟩ := h.lev y hy
      exact ⟨oy, hy1.mono (Nat.le_succ _), hy2, hy3⟩

/-- Abort. -/
theorem Inv.abort {P p st m} (h : Inv P p st m) {x : Nat} (hx : p.fin x = false) :
    Inv P { p with fin := upd p.fin x true,
                   owner := fun pk => if p.owner pk = some x then none else p.owner pk }
      { st with rows := fun pk s => cut x 0 (st.rows pk s), sps := upd st.sps x [],
                next := st.next + 1 } m := by
  have hd := h.doneFin x hx
  have hset : ∀ pk s, settled st.done (cut x 0 (st.rows pk s)) = settled st.done (st.rows pk s) :=
    fun pk s => settled_cut hd _
  have hP : ∀ pk, P (cutS x 0 (st.rows pk)) := by
    intro pk
    by_cases ho : p.owner pk = some x
    · have : cutS x 0 (st.rows pk) = settledS st.done (st.rows pk) := by
        funext s
        have hg := h.good pk s
        rw [ho] at hg
        exact hg.cut_holder hd
      rw [this]
      exact (h.base pk).1
    · rw [cutS_absent fun s => (h.good pk s).absent hd ho]
      exact h.cur pk
  refine ⟨?_, ?_, ?_, hP, ?_, ?_, ?_, ?_⟩
  · intro y hy
    change upd p.fin x true y = false at hy
    unfold upd at hy
    split at hy
    · cases hy
    · exact h.doneFin y hy
  · intro pk s
    have hg : Good st.done (p.owner pk) (cut x 0 (st.rows pk s)) :=
      (h.good pk s).suffix (List.dropWhile_suffix _)
    show Good st.done (if p.owner pk = some x then none else p.owner pk) (cut x 0 (st.rows pk s))
    split
    · next ho =>
      rw [ho] at hg
      exact hg.release hd (cut_cut (Nat.le_refl 0) _)
    · exact hg
  · intro pk s v hv
    exact Nat.lt_succ_of_lt (h.stamp pk s v ((List.dropWhile_suffix _).mem hv))
  · intro pk
    have h7 := h.base pk
    refine ⟨?_, ?_⟩
    · have : settledS st.done (fun s => cut x 0 (st.rows pk s)) = settledS st.done (st.rows pk) := by
        funext s
        exact hset pk s
      show P (settledS st.done (fun s => cut x 0 (st.rows pk s)))
      rw [this]
      exact h7.1
    · show top (settled st.done (cut x 0 (st.rows pk .prim))) = p.base pk
      rw [hset]
      exact h7.2
  · intro y hy pk hw
    change upd p.fin x true y = false at hy
    unfold upd at hy
    split at hy
    · cases hy
    · next he =>
      have := h.own y hy pk hw
      show (if p.owner pk = some x then none else p.owner pk) = some y
      rw [if_neg]
      · exact this
      · rw [this]; intro hc; cases hc; exact he rfl
  · intro pk y hy
    obtain ⟨h1, h2⟩ := owner_commit hy
    show upd p.fin x true y = false
    unfold upd
    rw [if_neg h2]
    exact h.ownFin pk y h1
  · intro y hy
    change upd p.fin x true y = false at hy
    unfold upd at hy
    split at hy
    · cases hy
    · next he =>
      obtain ⟨oy, hy1, hy2, hy3⟩ := h.lev y hy
      refine ⟨oy, hy1.mono (Nat.le_succ _), ?_, ?_⟩
      · show Linked _ _ (upd st.sps x [] y)
        unfold upd
        rw [if_neg he]
        exact hy2
      · intro pk
        exact agree_after_cut h hx hy he (hP pk) (hy3 pk)

end Verif.Replay
