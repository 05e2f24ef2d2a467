/-
Undoing the newest record of a transaction keeps the invariant.
-/
import Verif.RowLocks.Rollback

namespace Verif.RowLocks

theorem Sound.tail {st : Nat → Status} {ipLow : Bool} {h : Hdr} {t : List Hdr}
    (S : Sound st ipLow (h :: t)) : Sound st ipLow t where
  noAb := fun k hk => S.noAb k (List.mem_cons_of_mem _ hk)
  modes := fun k hk => S.modes k (List.mem_cons_of_mem _ hk)
  change := fun k hk => S.change k (List.mem_cons_of_mem _ hk)
  lockLoc := fun k hk => S.lockLoc k (List.mem_cons_of_mem _ hk)
  excl := (List.pairwise_cons.1 S.excl).2
  mono := fun i => (List.pairwise_cons.1 (S.mono i)).2
  lock3 := (List.pairwise_cons.1 S.lock3).2
  oneLock := (List.pairwise_cons.1 S.oneLock).2
  del := S.del.tail

/-- The newest record of a stack is alone at its location. -/
theorem Core.top {s : St} {L : List Hdr} (C : Core s L) {x l : Nat} {k : Kind}
    {rest : List (Nat × Kind)} (hst : s.stack x = (l, k) :: rest) :
    ∀ a ∈ s.stack x, a = (l, k) ∨ a.1 < l := by
  intro a ha
  have dec := C.dec x
  rw [hst, List.pairwise_cons] at dec
  rw [hst] at ha
  rcases List.mem_cons.1 ha with e | ha
  · exact Or.inl e
  · exact Or.inr (dec.1 a ha)

/-- A change of a transaction in progress below the first change has the same
owner. -/
theorem Sound.sameOwner {st : Nat → Status} {ipLow : Bool} {Ls : List Hdr} {h : Hdr}
    {R : List Hdr} (S : Sound st ipLow (Ls ++ h :: R)) (hl : h.lockOnly = false) {k : Hdr}
    (hk : k ∈ R) (kl : k.lockOnly = false) (hr : st k.oxid = .running) : h.oxid = k.oxid := by
  have e := (List.pairwise_append.1 S.excl).2.1
  rw [List.pairwise_cons] at e
  rcases e.1 k hk hr with h1 | h1
  · exact h1
  · have m1 := S.change h (by simp) hl
    have m2 := S.change k (by simp [hk]) kl
    have n1 := S.modes h (by simp)
    have n2 := S.modes k (by simp [hk])
    unfold conflicts at h1
    simp at h1
    omega

theorem undo_lock {s : St} {g : Log} {L : List Hdr} {t x l : Nat} {rest : List (Nat × Kind)}
    (I : Inv s g L t) (run : s.st x = .running) (hab : s.aborting x = true)
    (hst : s.stack x = (l, .lock) :: rest) {row : Row} (hrow : s.row = some row) :
    ∃ L' t', Inv { s with
                    stack := upd s.stack x rest
                    row := (lockUndo (s.next + 2) s.st x l row s.recs).1
                    recs := (lockUndo (s.next + 2) s.st x l row s.recs).2 } g L' t' := by
  rcases I.row with ⟨e, _⟩ | ⟨h, T, e, eL⟩
  · rw [e] at hrow; cases hrow
  rw [hrow] at e
  cases e
  subst eL
  have C := I.core
  have len := C.stored.length
  have lt := C.lt h (by simp)
  obtain ⟨page, L', e1, K⟩ := lockUndo_spec (fuel := s.next + 2) (x := x) (l := l)
    (row := ⟨h, t⟩) run C.stored C.flags C.sound (by omega)
  have lk : ∀ k, thatLock x l k = true → k.lockOnly = true ∧ k.oxid = x ∧ k.loc = l := by
    intro k hk
    simpa [thatLock, and_assoc] using hk
  have R2 : Red (fun k => k.lockOnly = true) (h :: T) L' := K.red.mono (fun k hk => (lk k hk).1)
  refine ⟨L', t, I.pop (gone := fun k => thatLock x l k = true) hab hst ?_ K.stored K.flags
    (C.sound.red (R2.mono (fun _ hh => Or.inl hh))) K.red ?_ ?_ ?_ ?_⟩
  · obtain ⟨T', eT⟩ := K.head
    exact Or.inr ⟨page, T', e1, eT⟩
  · intro k hk
    refine ⟨(lk k hk).2.1, fun h0 => ?_⟩
    have := C.items x (l, .lock) (by rw [hst]; exact List.mem_cons_self)
    have := (lk k hk).2.2
    omega
  · intro k hk ho h0 he
    obtain ⟨k', hk', e⟩ := K.red.mem k hk
    have q : k'.oxid = k.oxid ∧ k'.loc = k.loc ∧ kindOf k' = kindOf k := by
      rw [e]; exact ⟨rfl, rfl, rfl⟩
    have := C.own k' hk' (by rw [q.1, ho]; exact run) (by rw [q.2.1]; exact h0)
    rw [q.1, q.2.1, q.2.2, ho, he] at this
    rcases C.top hst _ this with e2 | e2
    · have kk : kindOf k = .lock := congrArg Prod.snd e2
      have : k.lockOnly = true := by
        unfold kindOf at kk
        split at kk
        · assumption
        · cases kk
      refine K.none k hk ?_
      simp [thatLock, this, ho, he]
    · have : l < l := e2
      omega
  · intro h; cases h
  · refine (I.val.red R2).frame ?_
    intro k _
    exact K.tup _

theorem modifyUndo_at {fuel x l : Nat} {k : Kind} {row : Row} {r : Recs} {Ls R : List Hdr} {h : Hdr}
    {T : List Hdr} (K : Stored r (Ls ++ h :: R)) (e : Ls ++ h :: R = row.hdr :: T)
    (hls : ∀ j ∈ Ls, j.lockOnly = true) (hl : h.lockOnly = false) (hf : Ls.length < fuel) :
    modifyUndo fuel x l k row r =
      if h.oxid ≠ x then (some row, r)
      else if h.loc = l ∨ (h.loc = 0 ∧ k = .ins) then
        itemRollback row r h (((Ls.map (fun h => h.loc)).getLast?).getD 0)
      else (some row, r) := by
  unfold modifyUndo
  rw [findNonLock_spec Ls fuel 0 row.hdr h R T K e hls hl hf]

theorem undo_ins {s : St} {g : Log} {L : List Hdr} {t x l : Nat} {rest : List (Nat × Kind)}
    (I : Inv s g L t) (run : s.st x = .running) (hab : s.aborting x = true)
    (hst : s.stack x = (l, .ins) :: rest) {row : Row} (hrow : s.row = some row) :
    ∃ L' t', Inv { s with
                    stack := upd s.stack x rest
                    row := (modifyUndo (s.next + 2) x l .ins row s.recs).1
                    recs := (modifyUndo (s.next + 2) x l .ins row s.recs).2 } g L' t' := by
  rcases I.row with ⟨e, _⟩ | ⟨p, T, e, eL⟩
  · rw [e] at hrow; cases hrow
  rw [hrow] at e
  cases e
  have C := I.core
  have top := C.top hst
  have m : (l, Kind.ins) ∈ s.stack x := by rw [hst]; exact List.mem_cons_self
  obtain ⟨b, hb, bo, b0⟩ := C.insRow x l run m
  have bl : b.lockOnly = false := by
    cases hh : b.lockOnly with
    | false => rfl
    | true => exact absurd b0 (C.sound.lockLoc b hb hh)
  obtain ⟨Ls, h, R, e, hls, hl⟩ := split_locks (by rw [eL]; simp) C.stored C.sound
  have S := C.sound
  have K := C.stored
  rw [e] at S K
  have len := C.stored
  rw [eL] at len
  have len := len.length
  have lt := C.lt p (by rw [eL]; simp)
  have hlen : Ls.length < s.next + 2 := by
    have := congrArg List.length e
    rw [eL] at this
    simp at this
    omega
  have hbh : b = h := by
    rw [e] at hb
    rcases List.mem_append.1 hb with q | q
    · rw [hls b q] at bl; cases bl
    rcases List.mem_cons.1 q with q | q
    · exact q
    exfalso
    have ho := S.sameOwner hl q bl (by rw [bo]; exact run)
    have hn : h.loc ≠ 0 := by
      have := Stored.below (Stored.drop (P := Ls) K) b q
      omega
    have hm : h ∈ L := by rw [e]; simp
    have o := C.own h hm (by rw [ho, bo]; exact run) hn
    rw [ho, bo] at o
    obtain ⟨l', h1, h2⟩ := C.ins b (by rw [e]; exact hb) (by rw [bo]; exact run) b0
    rw [bo] at h1
    have := C.insOne x l l' run m h1
    subst this
    have := h2 h hm ho hn
    rcases top _ o with q | q
    · have := congrArg Prod.fst q
      dsimp only at this; omega
    · dsimp only at q; omega
  subst hbh
  have h3 := C.bottom b hb b0
  have eLs : Ls = [] := by
    cases Ls with
    | nil => rfl
    | cons q Ls =>
      exfalso
      have := S.lock3
      rw [List.cons_append, List.pairwise_cons] at this
      exact this.1 b (by simp) (by rw [bo]; exact run) (hls q (by simp)) h3.1
  subst eLs
  have eR : R = [] := by
    cases R with
    | nil => rfl
    | cons q R => exact absurd b0 K.1
  subst eR
  have eq : p = b ∧ T = [] := by
    rw [eL] at e
    simpa using e
  obtain ⟨e1, e2⟩ := eq
  subst e1 e2
  have hres : modifyUndo (s.next + 2) x l .ins ⟨p, t⟩ s.recs = (none, s.recs) := by
    rw [modifyUndo_at (T := []) K rfl hls hl hlen, if_neg (by simp [bo]),
      if_pos (Or.inr ⟨b0, rfl⟩)]
    unfold itemRollback
    rw [if_neg (by simp [h3.2]), if_neg (by simp [b0])]
  rw [hres]
  have e' : L = [p] := e
  subst e'
  refine ⟨[], t, I.pop (gone := fun k => k = p) hab hst (Or.inl ⟨rfl, rfl⟩) trivial trivial
    C.sound.tail (.skip rfl .nil) ?_ (by simp) (by simp) ?_⟩
  · intro k hk
    rw [hk]; exact ⟨bo, fun _ => rfl⟩
  · have := I.val.pop (Ls := []) (x := x) (by simp) bl bo run hab
    exact Val.nil this

theorem undo_mod {s : St} {g : Log} {L : List Hdr} {t x l : Nat} {rest : List (Nat × Kind)}
    (I : Inv s g L t) (run : s.st x = .running) (hab : s.aborting x = true)
    (hst : s.stack x = (l, .mod) :: rest) {row : Row} (hrow : s.row = some row) :
    ∃ L' t', Inv { s with
                    stack := upd s.stack x rest
                    row := (modifyUndo (s.next + 2) x l .mod row s.recs).1
                    recs := (modifyUndo (s.next + 2) x l .mod row s.recs).2 } g L' t' := by
  rcases I.row with ⟨e, _⟩ | ⟨p, T, e, eL⟩
  · rw [e] at hrow; cases hrow
  rw [hrow] at e
  cases e
  have C := I.core
  have top := C.top hst
  have l0 := (C.items x (l, .mod) (by rw [hst]; exact List.mem_cons_self)).1
  dsimp only at l0
  obtain ⟨Ls, h, R, e, hls, hl⟩ := split_locks (by rw [eL]; simp) C.stored C.sound
  have S := C.sound
  have K := C.stored
  have F := C.flags
  rw [e] at S K F
  have len := C.stored
  rw [eL] at len
  have len := len.length
  have lt := C.lt p (by rw [eL]; simp)
  have hlen : Ls.length < s.next + 2 := by
    have := congrArg List.length e
    rw [eL] at this
    simp at this
    omega
  have hm : h ∈ L := by rw [e]; simp
  have hchg : ∀ k ∈ L, k.oxid = x → k.loc = l → k.lockOnly = false := by
    intro k hk ho he
    have := C.own k hk (by rw [ho]; exact run) (by omega)
    rw [ho, he] at this
    rcases top _ this with q | q
    · have kk : kindOf k = .mod := congrArg Prod.snd q
      unfold kindOf at kk
      split at kk
      · cases kk
      · next hh => simpa using hh
    · dsimp only at q; omega
  rw [modifyUndo_at (T := T) K (by rw [← e, eL]) hls hl hlen]
  by_cases hc : h.oxid = x ∧ h.loc = l
  · obtain ⟨ho, he⟩ := hc
    rw [if_neg (by simp [ho]), if_pos (Or.inl he)]
    obtain ⟨n, R', eR⟩ : ∃ n R', R = n :: R' := by
      cases R with
      | nil =>
        have : h.loc = 0 := Stored.drop (P := Ls) K
        omega
      | cons n R' => exact ⟨n, R', rfl⟩
    subst eR
    have Kh : Stored s.recs (h :: n :: R') := Stored.drop K
    have hn := Kh.2.1
    have V := I.val
    rw [e] at V
    have V := V.pop hls hl ho run hab
    have hrun : s.st h.oxid = .running := by rw [ho]; exact run
    have gon : ∀ k : Hdr, (k.oxid = x ∧ k.loc = l) → k.oxid = x ∧ (k.loc = 0 → Kind.mod = Kind.ins) := by
      intro k hk
      exact ⟨hk.1, fun q => by omega⟩
    have dLs : ∀ k ∈ Ls, k.loc ≠ l := by
      intro k hk
      have := (List.pairwise_append.1 K.desc).2.2 k hk h (by simp)
      omega
    have dR : ∀ k ∈ n :: R', k.loc ≠ l := by
      intro k hk
      have := Kh.below k hk
      omega
    rcases List.eq_nil_or_concat Ls with eLs | ⟨Ps, k, eLs⟩
    · -- the change is on the page
      subst eLs
      have ep : p = h ∧ T = n :: R' := by
        rw [eL] at e
        simpa using e
      obtain ⟨e1, e2⟩ := ep
      subst e1 e2
      have key : ∃ t', itemRollback ⟨p, t⟩ s.recs p ((([].map (fun h : Hdr => h.loc)).getLast?).getD 0) =
          (some ⟨n, t'⟩, s.recs) ∧ t' = (if p.deleted then t else (s.recs p.loc).tup) := by
        unfold itemRollback
        cases hd : p.deleted with
        | true =>
          refine ⟨t, ?_, by simp⟩
          rw [if_pos rfl]
          dsimp only
          rw [if_neg (by simp [hl]), hn]
        | false =>
          refine ⟨(s.recs p.loc).tup, ?_, by simp⟩
          rw [if_neg (by simp), if_pos (by omega)]
          dsimp only
          rw [if_pos (by simp), hn]
      obtain ⟨t', k1, k2⟩ := key
      rw [k1]
      refine ⟨n :: R', t', I.pop (gone := fun k => k.oxid = x ∧ k.loc = l) hab hst
        (Or.inr ⟨n, R', rfl, rfl⟩) Kh.2.2.2 F.2 S.tail ?_ gon ?_ ?_ ?_⟩
      · rw [e]; exact .skip ⟨ho, he⟩ (.refl _)
      · intro k hk _ _
        exact dR k hk
      · intro q; cases q
      · rw [k2]; exact V
    · -- there are locks above the change
      rw [List.concat_eq_append] at eLs
      subst eLs
      have h3 : h.mode ≠ 3 := by
        have := (List.pairwise_append.1 S.lock3).2.2 k (by simp) h (by simp)
        exact this hrun (hls k (by simp))
      have sf : soft h := Or.inr h3
      have D : Del (h :: n :: R') := S.del.drop
      have hd := D.1 sf
      have pd : p.deleted = false := by
        cases Ps with
        | nil =>
          have : p = k := by rw [eL] at e; simpa using congrArg List.head? e
          rw [this]
          exact Del.self S.del (Or.inl (hls k (by simp)))
        | cons q Ps =>
          have : p = q := by rw [eL] at e; simpa using congrArg List.head? e
          rw [this]
          exact Del.self S.del (Or.inl (hls q (by simp)))
      have hk0 : k.loc ≠ 0 := by
        have : Stored s.recs (k :: h :: n :: R') := by
          refine Stored.drop (P := Ps) ?_
          simpa using K
        exact this.1
      have ev : ((((Ps ++ [k]).map (fun h : Hdr => h.loc)).getLast?).getD 0) = k.loc := by simp
      have key : itemRollback ⟨p, t⟩ s.recs h k.loc =
          (some ⟨p, (s.recs h.loc).tup⟩, setHdr s.recs k.loc { n with chl := h.chl }) := by
        unfold itemRollback
        rw [if_neg (by simp [pd]), if_pos (by omega)]
        dsimp only
        rw [if_neg hk0, hn]
        congr 1
        · congr 2
          rw [hd.2, ← pd]
        · congr 1
          rw [hd.1, ← hd.2]
      rw [ev, key]
      have KK : Stored s.recs (Ps ++ k :: h :: n :: R') := by simpa using K
      have K' := KK.unlink (g' := { n with chl := h.chl }) rfl
      have eq : Ps ++ k :: { n with chl := h.chl } :: R' = (Ps ++ [k]) ++ { n with chl := h.chl } :: R' := by
        simp
      rw [eq] at K'
      have Fh : Flags (h :: n :: R') := F.drop
      have F' : Flags ({ n with chl := h.chl } :: R') := by
        refine ⟨?_, Fh.2.2⟩
        intro hh j hj
        exact Fh.1 hh j (List.mem_cons_of_mem _ hj)
      have R1 : Red (fun k => k.oxid = x ∧ k.loc = l) L
          ((Ps ++ [k]) ++ { n with chl := h.chl } :: R') := by
        rw [e]
        exact (Red.refl _).append (.skip ⟨ho, he⟩ (.keep h.chl (.refl _)))
      have R2 : Red soft L ((Ps ++ [k]) ++ { n with chl := h.chl } :: R') := by
        rw [e]
        exact (Red.refl _).append (.skip sf (.keep h.chl (.refl _)))
      refine ⟨(Ps ++ [k]) ++ { n with chl := h.chl } :: R', (s.recs h.loc).tup,
        I.pop (gone := fun k => k.oxid = x ∧ k.loc = l) hab hst ?_ K' ?_ (C.sound.red R2) R1 gon
          ?_ ?_ ?_⟩
      · cases Ps with
        | nil =>
          have : p = k := by rw [eL] at e; simpa using congrArg List.head? e
          subst this
          exact Or.inr ⟨p, _, rfl, rfl⟩
        | cons q Ps =>
          have : p = q := by rw [eL] at e; simpa using congrArg List.head? e
          subst this
          exact Or.inr ⟨p, _, rfl, rfl⟩
      · refine Flags.weaken F F' ?_
        intro W j hj
        rcases List.mem_cons.1 hj with q | q
        · rw [q]
          exact ⟨(W n (by simp)).1, (W h (by simp)).2⟩
        · exact W j (by simp [q])
      · intro j hj _ _
        rcases List.mem_append.1 hj with q | q
        · exact dLs j q
        rcases List.mem_cons.1 q with q | q
        · rw [q]; exact dR n (by simp)
        · exact dR j (by simp [q])
      · intro q; cases q
      · rw [if_neg (by simp [hd.1])] at V
        refine Val.frame (V.red ((Red.refl (Ps ++ [k])).append (.keep h.chl (.refl R')))) ?_
        intro j _
        exact setHdr_tup _ _ _ _
  · -- nothing to do
    have hno : ∀ k ∈ L, k.oxid = x → k.loc ≠ 0 → k.loc ≠ l := by
      intro k hk ho k0 he
      have kl := hchg k hk ho he
      rw [e] at hk
      rcases List.mem_append.1 hk with q | q
      · rw [hls k q] at kl; cases kl
      rcases List.mem_cons.1 q with q | q
      · rw [← q] at hc; exact hc ⟨ho, he⟩
      have o := S.sameOwner hl q kl (by rw [ho]; exact run)
      have := Stored.below (Stored.drop (P := Ls) K) k q
      have own := C.own h hm (by rw [o, ho]; exact run) (by omega)
      rw [o, ho] at own
      rcases top _ own with q | q
      · have := congrArg Prod.fst q
        dsimp only at this; omega
      · dsimp only at q; omega
    have res : (if h.oxid ≠ x then (some (⟨p, t⟩ : Row), s.recs)
        else if h.loc = l ∨ (h.loc = 0 ∧ Kind.mod = .ins) then
          itemRollback ⟨p, t⟩ s.recs h (((Ls.map (fun h => h.loc)).getLast?).getD 0)
        else (some ⟨p, t⟩, s.recs)) = (some ⟨p, t⟩, s.recs) := by
      by_cases q : h.oxid = x
      · rw [if_neg (by simp [q]), if_neg]
        rintro (q' | ⟨_, q'⟩)
        · exact hc ⟨q, q'⟩
        · cases q'
      · rw [if_pos q]
    rw [res]
    refine ⟨L, t, I.pop (gone := fun _ => False) hab hst (Or.inr ⟨p, T, rfl, eL⟩) C.stored C.flags
      C.sound (.refl _) (fun _ q => q.elim) hno ?_ I.val⟩
    intro q; cases q

/-- One step of a rollback. -/
theorem Inv.undoTop {s : St} {g : Log} {L : List Hdr} {t x : Nat} (I : Inv s g L t)
    (run : s.st x = .running) (hab : s.aborting x = true) :
    ∃ L' t', Inv (s.undoTop x) g L' t' := by
  unfold St.undoTop
  split
  · exact ⟨L, t, I⟩
  · next l k rest hst =>
    split
    · next hrow =>
      have eL : L = [] := by
        rcases I.row with ⟨_, q⟩ | ⟨_, _, q, _⟩
        · exact q
        · rw [hrow] at q; cases q
      subst eL
      refine ⟨[], t, ?_⟩
      have := I.pop (gone := fun _ => False) (r := s.recs) hab hst (Or.inl ⟨rfl, rfl⟩) trivial trivial
        I.core.sound .nil (fun _ q => q.elim) (by simp) (by simp) I.val
      rw [← hrow] at this
      exact this
    · next row hrow =>
      dsimp only
      cases k with
      | lock => exact undo_lock I run hab hst hrow
      | ins => exact undo_ins I run hab hst hrow
      | mod => exact undo_mod I run hab hst hrow

end Verif.RowLocks
