import Verif.Image.Prim
/-!
# The replay once it has met a change of the row, or has passed the image
-/

namespace Verif.Image

/-- The row of the replay beside the row of the primary server: committed versions with the same
newest value below, versions of the same transaction with the same newest value above.  `A` holds for
the transactions which use savepoints; their versions are the same, all written by the replay. -/
structure Beside (A : Nat → Prop) (t0 : Nat) (s : PSt) (c : Chain) (x : Nat) (a b a' b' : Chain) :
    Prop where
  prim : Parts s x a b
  eq : c = a' ++ b'
  below : ∀ v ∈ b', s.done v.xid = true
  above : ∀ v ∈ a', v.xid = x
  empty : a = [] → a' = []
  lookb : look b' = look b
  look : look (a' ++ b') = look (a ++ b)
  exact : A x → a' = a ∧ ∀ v ∈ a, v.img = false ∧ t0 ≤ v.time

structure Sync (A : Nat → Prop) (t0 : Nat) (s : PSt) (r : St) : Prop where
  now : r.now = s.now
  t0le : t0 ≤ s.now
  done : r.done = s.done
  layered : Layered r.chain
  sp : ∀ x, ∃ old, s.sps x = r.rsp x ++ old ∧ ∀ p ∈ old, p.2 < t0
  ck : ∀ x, s.fin x = false → ¬ A x → (r.ck x).isSome = true
  beside : ∃ x a b a' b', Beside A t0 s r.chain x a b a' b'

theorem Beside.notBelow {A : Nat → Prop} {t0 : Nat} {s : PSt} {c a b a' b' : Chain} {x y : Nat}
    (hi : PInv s) (h : Beside A t0 s c x a b a' b') (hy : s.fin y = false) : ∀ v ∈ b', v.xid ≠ y := by
  intro v hv he
  have := h.below v hv
  rw [he, hi.live hy] at this
  cases this

theorem Beside.owner {A : Nat → Prop} {t0 : Nat} {s : PSt} {c a b a' b' : Chain} {x y : Nat}
    (hi : PInv s) (h : Beside A t0 s c x a b a' b') (hf : free s y = true) :
    ∀ v ∈ a', v.xid = y := by
  cases a with
  | nil => rw [h.empty rfl]; simp
  | cons u a =>
    have := h.prim.owner hi hf u (by simp)
    rw [h.prim.above u (by simp)] at this
    subst this
    exact h.above

/-- After a change of the row. -/
theorem Beside.push {A : Nat → Prop} {t0 : Nat} {s s' : PSt} {c a b a' b' a'' : Chain} {x y : Nat}
    {v w : Ver} (hi : PInv s) (h : Beside A t0 s c x a b a' b') (hp : Pushed s s' y v)
    (ht : t0 ≤ s.now) (ha : ∀ u ∈ a'', u.xid = y)
    (hw : w.xid = y) (hv : w.val = v.val) (hn : w.val ≠ none → w.ver = v.ver)
    (hx : A y → w = v ∧ a'' = a') :
    Beside A t0 s' (w :: (a'' ++ b')) y (v :: a) b (w :: a'') b' := by
  refine ⟨h.prim.push hi hp, rfl, by rw [hp.done']; exact h.below, ?_, by simp, h.lookb, ?_, ?_⟩
  · intro u hu
    rcases List.mem_cons.mp hu with rfl | hu
    · exact hw
    · exact ha u hu
  · simp only [List.cons_append, Verif.Image.look, hv]
    cases hvv : v.val with
    | none => rfl
    | some k =>
      rw [hn (by rw [hv, hvv]; simp)]
  · intro hA
    obtain ⟨rfl, rfl⟩ := hx hA
    have hxa : a'' = a ∧ ∀ u ∈ a, u.img = false ∧ t0 ≤ u.time := by
      cases a with
      | nil => exact ⟨h.empty rfl, by simp⟩
      | cons u a =>
        have := h.prim.owner hi hp.free u (by simp)
        rw [h.prim.above u (by simp)] at this
        subst this
        exact h.exact hA
    refine ⟨by rw [hxa.1], ?_⟩
    intro u hu
    rcases List.mem_cons.mp hu with rfl | hu
    · exact ⟨hp.img, by rw [hp.time]; exact ht⟩
    · exact hxa.2 u hu

/-- The row found by an update or a deletion. -/
theorem Beside.head {A : Nat → Prop} {t0 : Nat} {s : PSt} {c a b a' b' d : Chain} {x : Nat} {u : Ver}
    (h : Beside A t0 s c x a b a' b') (hc : s.chain = u :: d) (hu : u.val ≠ none) :
    ∃ u' d', c = u' :: d' ∧ u'.val ≠ none ∧ u'.ver = u.ver := by
  have hl := h.look
  rw [← h.eq, ← h.prim.eq, hc] at hl
  cases c with
  | nil =>
    cases huv : u.val with
    | none => exact absurd huv hu
    | some k => simp [Verif.Image.look, huv] at hl
  | cons u' d' =>
    refine ⟨u', d', rfl, ?_⟩
    cases huv : u.val with
    | none => exact absurd huv hu
    | some k =>
      cases huv' : u'.val with
      | none => simp [Verif.Image.look, huv, huv'] at hl
      | some k' =>
        simp [Verif.Image.look, huv, huv'] at hl
        exact ⟨by simp, hl.1⟩

theorem nextVer_gt {s : PSt} (hi : PInv s) {x y : Nat} {a b : Chain} (hp : Parts s x a b)
    (hf : free s y = true) : ∀ v ∈ a, v.ver < nextVer s.chain y := by
  cases a with
  | nil => simp
  | cons u a =>
    have hu := hp.owner hi hf u (by simp)
    rw [hp.eq]
    simp only [List.cons_append, nextVer, hu, if_true]
    intro v hv
    rcases List.mem_cons.mp hv with rfl | hv
    · omega
    · have := List.rel_of_pairwise_cons hp.vers hv
      omega

/-- The fields of `Sync` other than the chain after a step which leaves the savepoints alone. -/
theorem Sync.others {A : Nat → Prop} {t0 : Nat} {s s' : PSt} {r r' : St} (h : Sync A t0 s r)
    (h1 : r'.now = r.now + 1) (h2 : s'.now = s.now + 1) (h3 : r'.done = s'.done)
    (h4 : Layered r'.chain) (h5 : s'.sps = s.sps) (h6 : r'.rsp = r.rsp)
    (h7 : ∀ z, s.fin z = true → s'.fin z = true) (h8 : r'.ck = r.ck)
    (h9 : ∃ x a b a' b', Beside A t0 s' r'.chain x a b a' b') : Sync A t0 s' r' := by
  refine ⟨by rw [h1, h2, h.now], by rw [h2]; have := h.t0le; omega, h3, h4, ?_, ?_, h9⟩
  · intro x; rw [h5, h6]; exact h.sp x
  · intro x hx hA
    rw [h8]
    refine h.ck x ?_ hA
    cases hf : s.fin x with
    | false => rfl
    | true => rw [h7 x hf] at hx; cases hx

theorem sync_put {A : Nat → Prop} {t0 : Nat} {s s' : PSt} {r : St} {y v : Nat} (hi : PInv s)
    (h : Sync A t0 s r)
    (hp : Pushed s s' y ⟨y, nextVer s.chain y, some v, s.now, false⟩) :
    conflict r y r.chain = some r.chain ∧
    Sync A t0 s' { r with chain := put r y v (nextVer s.chain y) r.chain, seen := set r.seen y true,
                          now := r.now + 1 } := by
  obtain ⟨x, a, b, a', b', hb⟩ := h.beside
  have hnb := hb.notBelow hi hp.fin
  have how := hb.owner hi hp.free
  have hc : conflict r y r.chain = some r.chain := by
    rw [hb.eq]
    exact conflict_own (by rw [h.done]; exact hi.live hp.fin) how (by rw [h.done]; exact hb.below)
  refine ⟨hc, ?_⟩
  have hd : r.chain.dropWhile (fun u => u.xid == y && decide (nextVer s.chain y ≤ u.ver)) =
      a'.dropWhile (fun u => u.xid == y && decide (nextVer s.chain y ≤ u.ver)) ++ b' := by
    rw [hb.eq]
    exact drop_append (fun w hw => by simp [hnb w hw])
  have hput : put r y v (nextVer s.chain y) r.chain =
      ⟨y, nextVer s.chain y, some v, r.now, false⟩ ::
        (a'.dropWhile (fun u => u.xid == y && decide (nextVer s.chain y ≤ u.ver)) ++ b') := by
    simp only [put, hd]
  refine h.others rfl hp.now' (by rw [hp.done']; exact h.done) ?_ hp.sps' rfl
    (by rw [hp.fin']; exact fun _ hz => hz) rfl ?_
  · exact (h.layered.drop _).push rfl
  · show ∃ x a b a' b', Beside A t0 s' (put r y v (nextVer s.chain y) r.chain) x a b a' b'
    rw [hput]
    refine ⟨y, _, b, _, b', hb.push hi hp h.t0le (fun u hu => how u (drop_mem hu)) rfl rfl
      (fun _ => rfl) ?_⟩
    intro hA
    refine ⟨by rw [h.now], drop_none ?_⟩
    intro u hu
    have haa : a' = a := by
      cases ha : a with
      | nil => exact hb.empty ha
      | cons w a1 =>
        have hw : w ∈ a := by rw [ha]; simp
        have hxy : x = y := by rw [← hb.prim.above w hw]; exact hb.prim.owner hi hp.free w hw
        rw [← ha]
        exact (hb.exact (by rw [hxy]; exact hA)).1
    rw [haa] at hu
    have := nextVer_gt hi hb.prim hp.free u hu
    simp; intro _; omega

theorem sync_putIf {A : Nat → Prop} {t0 : Nat} {s s' : PSt} {r : St} {y v : Nat} (hi : PInv s)
    (h : Sync A t0 s r)
    (hp : Pushed s s' y ⟨y, nextVer s.chain y, some v, s.now, false⟩) (hl : top s.chain ≠ none) :
    Sync A t0 s' { r with chain := putIf r y v (nextVer s.chain y) r.chain,
                          seen := set r.seen y true, now := r.now + 1 } := by
  obtain ⟨x, a, b, a', b', hb⟩ := h.beside
  have hnb := hb.notBelow hi hp.fin
  have how := hb.owner hi hp.free
  have hput : putIf r y v (nextVer s.chain y) r.chain =
      ⟨y, nextVer s.chain y, some v, r.now, false⟩ :: (a' ++ b') := by
    cases hs : s.chain with
    | nil => rw [hs] at hl; exact absurd rfl hl
    | cons u d =>
      obtain ⟨u', d', hc, hu', hver⟩ := hb.head hs (by rw [hs] at hl; exact hl)
      rw [← hb.eq, hc]
      simp only [putIf, hu', if_false]
      rw [if_neg]
      rintro ⟨hxy, hle⟩
      have hmem : u' ∈ a' ++ b' := by rw [← hb.eq, hc]; simp
      rcases List.mem_append.mp hmem with hm | hm
      · cases ha : a with
        | nil => rw [hb.empty ha] at hm; simp at hm
        | cons w a1 =>
          have hw : w ∈ a := by rw [ha]; simp
          have hwy := hb.prim.owner hi hp.free w hw
          have hwu : w = u := by
            have := hb.prim.eq
            rw [hs, ha] at this
            exact (List.cons.inj this).1.symm
          rw [hwu] at hwy
          simp [nextVer, hwy] at hle
          omega
      · exact hnb u' hm hxy
  refine h.others rfl hp.now' (by rw [hp.done']; exact h.done) ?_ hp.sps' rfl
    (by rw [hp.fin']; exact fun _ hz => hz) rfl ?_
  · show Layered (putIf r y v (nextVer s.chain y) r.chain)
    rw [hput, ← hb.eq]
    exact h.layered.push rfl
  · show ∃ x a b a' b', Beside A t0 s' (putIf r y v (nextVer s.chain y) r.chain) x a b a' b'
    rw [hput]
    exact ⟨y, _, b, _, b', hb.push hi hp h.t0le how rfl rfl (fun _ => rfl)
      (fun _ => ⟨by rw [h.now], rfl⟩)⟩

theorem sync_del {A : Nat → Prop} {t0 : Nat} {s s' : PSt} {r : St} {y : Nat} {u : Ver} {d : Chain}
    (hi : PInv s) (h : Sync A t0 s r) (hs : s.chain = u :: d) (hu : u.val ≠ none)
    (hp : Pushed s s' y ⟨y, u.ver, none, s.now, false⟩) :
    conflict r y r.chain = some r.chain ∧
    Sync A t0 s' { r with chain := del r y u.ver r.chain, seen := set r.seen y true,
                          now := r.now + 1 } := by
  obtain ⟨x, a, b, a', b', hb⟩ := h.beside
  have how := hb.owner hi hp.free
  have hc : conflict r y r.chain = some r.chain := by
    rw [hb.eq]
    exact conflict_own (by rw [h.done]; exact hi.live hp.fin) how (by rw [h.done]; exact hb.below)
  refine ⟨hc, ?_⟩
  have hdel : del r y u.ver r.chain = ⟨y, u.ver, none, r.now, false⟩ :: (a' ++ b') := by
    obtain ⟨u', d', hc, hu', hver⟩ := hb.head hs hu
    rw [← hb.eq, hc]
    simp only [del, hu', if_false]
    rw [if_neg (by omega), hver]
  refine h.others rfl hp.now' (by rw [hp.done']; exact h.done) ?_ hp.sps' rfl
    (by rw [hp.fin']; exact fun _ hz => hz) rfl ?_
  · show Layered (del r y u.ver r.chain)
    rw [hdel, ← hb.eq]
    exact h.layered.push rfl
  · show ∃ x a b a' b', Beside A t0 s' (del r y u.ver r.chain) x a b a' b'
    rw [hdel]
    exact ⟨y, _, b, _, b', hb.push hi hp h.t0le how rfl rfl (fun hne => absurd rfl hne)
      (fun _ => ⟨by rw [h.now], rfl⟩)⟩

/-- The part of a savepoint record that has to do with the checkpoint's undo stack does nothing to
versions written by the replay. -/
theorem ckBack_same {r : St} {x id : Nat} {c : Chain} (h : ∀ v ∈ c, v.xid = x → v.img = false) :
    ckBack r x id c = c := by
  simp only [ckBack]
  split
  · rfl
  · split
    · rfl
    · refine drop_none ?_
      intro v hv
      by_cases hx : v.xid = x
      · simp [h v hv hx]
      · simp [hx]

theorem Beside.noImg {A : Nat → Prop} {t0 : Nat} {s : PSt} {c a b a' b' : Chain} {x y : Nat}
    (hi : PInv s) (h : Beside A t0 s c x a b a' b') (hA : A y) (hy : s.fin y = false) :
    ∀ v ∈ a' ++ b', v.xid = y → v.img = false := by
  intro v hv he
  rcases List.mem_append.mp hv with hv | hv
  · have hx := h.above v hv
    rw [he] at hx
    subst hx
    obtain ⟨h1, h2⟩ := h.exact hA
    rw [h1] at hv
    exact (h2 v hv).1
  · exact absurd he (h.notBelow hi hy v hv)

theorem sync_sp {A : Nat → Prop} {t0 : Nat} {s : PSt} {r : St} {y id : Nat} (hi : PInv s)
    (h : Sync A t0 s r) (hA : A y) (hy : s.fin y = false) :
    Sync A t0 { s with now := s.now + 1, sps := set s.sps y ((id, s.now) :: s.sps y) }
      { r with chain := ckBack r y id r.chain, ck := ckDrop r y,
               rsp := set r.rsp y ((id, r.now) :: r.rsp y), seen := set r.seen y true,
               now := r.now + 1 } := by
  obtain ⟨x, a, b, a', b', hb⟩ := h.beside
  have hck : ckBack r y id r.chain = r.chain := by
    rw [hb.eq]; exact ckBack_same (hb.noImg hi hA hy)
  rw [hck]
  have hp := hb.prim
  refine ⟨by simp [h.now], ?_, h.done, h.layered, ?_, ?_, x, a, b, a', b',
    ⟨hp.eq, hp.below, hp.above, hp.open', hp.vers⟩, hb.eq, hb.below, hb.above, hb.empty, hb.lookb,
    hb.look, hb.exact⟩
  · show t0 ≤ s.now + 1
    have := h.t0le
    omega
  · intro z
    by_cases hz : z = y
    · subst hz
      obtain ⟨old, ho, hlt⟩ := h.sp z
      refine ⟨old, ?_, hlt⟩
      show set s.sps z ((id, s.now) :: s.sps z) z = set r.rsp z ((id, r.now) :: r.rsp z) z ++ old
      rw [set_same, set_same, ho, h.now]
      rfl
    · obtain ⟨old, ho, hlt⟩ := h.sp z
      refine ⟨old, ?_, hlt⟩
      show set s.sps y ((id, s.now) :: s.sps y) z = set r.rsp y ((id, r.now) :: r.rsp y) z ++ old
      rw [set_other _ _ hz, set_other _ _ hz]
      exact ho
  · intro z hz hnA
    show (set r.ck y none z).isSome = true
    have : z ≠ y := by rintro rfl; exact hnA hA
    rw [set_other _ _ this]
    exact h.ck z hz hnA

theorem sync_rb {A : Nat → Prop} {t0 : Nat} {s : PSt} {r : St} {y id t : Nat} {rest : List (Nat × Nat)}
    (hi : PInv s) (h : Sync A t0 s r) (hA : A y) (hy : s.fin y = false)
    (hs : s.sps y = (id, t) :: rest) :
    Sync A t0 { s with now := s.now + 1,
                       chain := s.chain.dropWhile (fun u => u.xid == y && decide (t ≤ u.time)),
                       sps := set s.sps y rest }
      { r with chain := ckBack r y id (back r y id r.chain), ck := ckDrop r y,
               rsp := set r.rsp y (backSp r y id), seen := set r.seen y true,
               now := r.now + 1 } := by
  obtain ⟨x, a, b, a', b', hb⟩ := h.beside
  have hp := hb.prim
  have hnb := hb.notBelow hi hy
  obtain ⟨old, ho, hlt⟩ := h.sp y
  -- what the rollback does is the same on both sides
  have hsame : back r y id r.chain =
      a'.dropWhile (fun u => u.xid == y && decide (t ≤ u.time)) ++ b' ∧
      rest = backSp r y id ++ (if r.rsp y = [] then rest else old) ∧
      ∀ p ∈ (if r.rsp y = [] then rest else old), p.2 < t0 := by
    have himg : ∀ v ∈ a' ++ b', v.xid = y → v.img = false := hb.noImg hi hA hy
    cases hr : r.rsp y with
    | nil =>
      rw [hr, List.nil_append, hs] at ho
      have ht : t < t0 := hlt (id, t) (by rw [← ho]; simp)
      refine ⟨?_, by simp [backSp, hr], ?_⟩
      · simp only [back, hr]
        rw [hb.eq, drop_append (fun w hw => by simp [hnb w hw])]
        congr 1
        have key : ∀ (l : Chain), (∀ v ∈ l, v ∈ a') →
            l.dropWhile (fun u => u.xid == y && !u.img) =
            l.dropWhile (fun u => u.xid == y && decide (t ≤ u.time)) := by
          intro l
          induction l with
          | nil => intro _; rfl
          | cons v l ih =>
            intro hl
            have hv := hl v (by simp)
            have hih := ih (fun w hw => hl w (by simp [hw]))
            by_cases hvy : v.xid = y
            · have h1 := himg v (by simp [hv]) hvy
              have h2 : t0 ≤ v.time := by
                have hx := hb.above v hv
                rw [hvy] at hx
                subst hx
                obtain ⟨e1, e2⟩ := hb.exact hA
                rw [e1] at hv
                exact (e2 v hv).2
              rw [List.dropWhile_cons_of_pos (by simp [hvy, h1]),
                List.dropWhile_cons_of_pos (by simp [hvy]; omega), hih]
            · rw [List.dropWhile_cons_of_neg (by simp [hvy]),
                List.dropWhile_cons_of_neg (by simp [hvy])]
        exact key a' (fun _ hv => hv)
      · simp only [if_true]
        intro p hpm
        exact hlt p (by rw [← ho]; simp [hpm])
    | cons q l =>
      obtain ⟨p, tt⟩ := q
      rw [hr, List.cons_append, hs] at ho
      obtain ⟨h1, h2⟩ := List.cons.inj ho
      obtain ⟨rfl, rfl⟩ := Prod.mk.inj h1
      refine ⟨?_, by simp [backSp, hr, h2], by simpa using hlt⟩
      simp only [back, hr, if_true]
      rw [hb.eq, drop_append (fun w hw => by simp [hnb w hw])]
      congr 1
      have key : ∀ (l : Chain), (∀ v ∈ l, v ∈ a') →
          l.dropWhile (fun u => u.xid == y && !u.img && decide (t ≤ u.time)) =
          l.dropWhile (fun u => u.xid == y && decide (t ≤ u.time)) := by
        intro l
        induction l with
        | nil => intro _; rfl
        | cons v l ih =>
          intro hl
          have hv := hl v (by simp)
          have hih := ih (fun w hw => hl w (by simp [hw]))
          have hpe : (v.xid == y && !v.img && decide (t ≤ v.time)) =
              (v.xid == y && decide (t ≤ v.time)) := by
            by_cases hvy : v.xid = y
            · have h1 := himg v (by simp [hv]) hvy
              simp [hvy, h1]
            · have h1 : (v.xid == y) = false := by simpa using hvy
              rw [h1]; rfl
          simp only [List.dropWhile_cons, hpe, hih]
      exact key a' (fun _ hv => hv)
  obtain ⟨hback, hrest, hold⟩ := hsame
  have hcb : ckBack r y id (back r y id r.chain) = back r y id r.chain := by
    refine ckBack_same ?_
    rw [hback]
    intro v hv
    refine hb.noImg hi hA hy v ?_
    rcases List.mem_append.mp hv with hv | hv
    · exact List.mem_append_left _ (drop_mem hv)
    · exact List.mem_append_right _ hv
  rw [hcb, hback]
  have hdr : s.chain.dropWhile (fun u => u.xid == y && decide (t ≤ u.time)) =
      a.dropWhile (fun u => u.xid == y && decide (t ≤ u.time)) ++ b :=
    hp.drop hi hy (by intro v hv; simp at hv; exact hv.1)
  -- the versions above: none taken off, or the same on both sides
  have haa : a'.dropWhile (fun u => u.xid == y && decide (t ≤ u.time)) =
        a.dropWhile (fun u => u.xid == y && decide (t ≤ u.time)) ∨
      (a'.dropWhile (fun u => u.xid == y && decide (t ≤ u.time)) = a' ∧
        a.dropWhile (fun u => u.xid == y && decide (t ≤ u.time)) = a) := by
    by_cases hxy : x = y
    · subst hxy
      rw [(hb.exact hA).1]
      exact .inl rfl
    · refine .inr ⟨drop_none ?_, drop_none ?_⟩
      · intro v hv
        have := hb.above v hv
        simp [this, hxy]
      · intro v hv
        have := hp.above v hv
        simp [this, hxy]
  have hlay : Layered (a'.dropWhile (fun u => u.xid == y && decide (t ≤ u.time)) ++ b') := by
    have hl := h.layered
    rw [hb.eq] at hl
    rw [← drop_append (fun w hw => by simp [hnb w hw])]
    exact hl.drop _
  refine ⟨by simp [h.now], ?_, h.done, hlay, ?_, ?_, ?_⟩
  · show t0 ≤ s.now + 1
    have := h.t0le
    omega
  · intro z
    by_cases hz : z = y
    · subst hz
      refine ⟨_, ?_, hold⟩
      show set s.sps z rest z = set r.rsp z (backSp r z id) z ++ _
      rw [set_same, set_same]
      exact hrest
    · obtain ⟨old', ho', hlt'⟩ := h.sp z
      refine ⟨old', ?_, hlt'⟩
      show set s.sps y rest z = set r.rsp y (backSp r y id) z ++ old'
      rw [set_other _ _ hz, set_other _ _ hz]
      exact ho'
  · intro z hz hnA
    show (set r.ck y none z).isSome = true
    have : z ≠ y := by rintro rfl; exact hnA hA
    rw [set_other _ _ this]
    exact h.ck z hz hnA
  · refine ⟨x, _, b, _, b', ⟨hdr, hp.below, fun v hv => hp.above v (drop_mem hv), ?_,
      List.Pairwise.sublist (List.dropWhile_suffix _).sublist hp.vers⟩, rfl, hb.below,
      fun v hv => hb.above v (drop_mem hv), ?_, hb.lookb, ?_, ?_⟩
    · intro hne
      refine hp.open' ?_
      rintro rfl
      exact hne rfl
    · intro he
      rcases haa with e | ⟨e1, e2⟩
      · rw [e, he]
      · rw [e1]
        rw [e2] at he
        exact hb.empty he
    · rcases haa with e | ⟨e1, e2⟩
      · rw [e]
        generalize a.dropWhile (fun u => u.xid == y && decide (t ≤ u.time)) = l
        cases l with
        | nil => exact hb.lookb
        | cons v l => rfl
      · rw [e1, e2]; exact hb.look
    · intro hAx
      obtain ⟨h1, h2⟩ := hb.exact hAx
      exact ⟨by rw [h1], fun v hv => h2 v (drop_mem hv)⟩

theorem sync_commit {A : Nat → Prop} {t0 : Nat} {s : PSt} {r : St} {y : Nat}
    (h : Sync A t0 s r) :
    Sync A t0 { s with now := s.now + 1, done := set s.done y true, fin := set s.fin y true }
      { r with done := set r.done y true, seen := set r.seen y true, now := r.now + 1 } := by
  obtain ⟨x, a, b, a', b', hb⟩ := h.beside
  have hp := hb.prim
  have hmono : ∀ z, s.done z = true → set s.done y true z = true := by
    intro z hz
    by_cases hzx : z = y
    · subst hzx; exact set_same _ _ _
    · rw [set_other _ _ hzx]; exact hz
  refine h.others rfl rfl ?_ h.layered rfl rfl ?_ rfl ?_
  · show set r.done y true = set s.done y true
    rw [h.done]
  · intro z hz
    show set s.fin y true z = true
    by_cases hzx : z = y
    · subst hzx; exact set_same _ _ _
    · rw [set_other _ _ hzx]; exact hz
  · by_cases hxy : x = y
    · subst hxy
      have hall : ∀ {l m : Chain}, (∀ v ∈ l, v.xid = x) → (∀ v ∈ m, s.done v.xid = true) →
          ∀ v ∈ l ++ m, set s.done x true v.xid = true := by
        intro l m hl hm v hv
        rcases List.mem_append.mp hv with hv | hv
        · rw [hl v hv]; exact set_same _ _ _
        · exact hmono _ (hm v hv)
      refine ⟨x, [], a ++ b, [], a' ++ b', ⟨hp.eq, hall hp.above hp.below, by simp, by simp,
        List.Pairwise.nil⟩, hb.eq, hall hb.above hb.below, by simp, fun _ => rfl, hb.look, hb.look,
        fun _ => ⟨rfl, by simp⟩⟩
    · refine ⟨x, a, b, a', b', ⟨hp.eq, fun v hv => hmono _ (hp.below v hv), hp.above, ?_, hp.vers⟩,
        hb.eq, fun v hv => hmono _ (hb.below v hv), hb.above, hb.empty, hb.lookb, hb.look, hb.exact⟩
      intro hne
      show set s.fin y true x = false
      rw [set_other _ _ hxy]; exact hp.open' hne

theorem sync_abort {A : Nat → Prop} {t0 : Nat} {s : PSt} {r : St} {y : Nat} (hi : PInv s)
    (h : Sync A t0 s r) (hy : s.fin y = false) :
    Sync A t0 { s with now := s.now + 1, chain := s.chain.dropWhile (fun u => u.xid == y),
                       fin := set s.fin y true }
      { r with chain := abort r y r.chain, seen := set r.seen y true, now := r.now + 1 } := by
  obtain ⟨x, a, b, a', b', hb⟩ := h.beside
  have hp := hb.prim
  have hnb := hb.notBelow hi hy
  have hdr : s.chain.dropWhile (fun u => u.xid == y) = a.dropWhile (fun u => u.xid == y) ++ b :=
    hp.drop hi hy (by intro v hv; simpa using hv)
  have hal : Layered a' := by
    have hl := h.layered
    rw [hb.eq] at hl
    exact hl.left
  have hab : abort r y r.chain = (if x = y then [] else a') ++ b' := by
    simp only [abort]
    rw [hb.eq, drop_append (fun w hw => by simp [hnb w hw])]
    by_cases hxy : x = y
    · subst hxy
      simp only [if_true, List.nil_append]
      cases hck : r.ck x with
      | none =>
        have hA : A x := by
          apply Classical.byContradiction
          intro hA
          have := h.ck x hy hA
          rw [hck] at this
          cases this
        rw [drop_all]
        · rfl
        · intro v hv
          have hv' := hv
          obtain ⟨e1, e2⟩ := hb.exact hA
          rw [e1] at hv'
          simp [hb.above v hv, (e2 v hv').1]
      | some sps =>
        simp only
        rw [drop_append (fun w hw => by simp [hnb w hw]), drop_two hb.above hal]
        rfl
    · have e1 : a'.dropWhile (fun u => u.xid == y && !u.img) = a' :=
        drop_none (fun v hv => by simp [hb.above v hv, hxy])
      rw [e1, if_neg hxy]
      cases r.ck y with
      | none => rfl
      | some sps =>
        simp only
        rw [drop_append (fun w hw => by simp [hnb w hw]),
          drop_none (fun v hv => by simp [hb.above v hv, hxy])]
  refine h.others rfl rfl h.done ?_ rfl rfl ?_ rfl ?_
  · show Layered (abort r y r.chain)
    rw [hab]
    have hl := h.layered
    rw [hb.eq] at hl
    by_cases hxy : x = y
    · simp only [hxy, if_true]; exact hl.right
    · simp only [hxy, if_false]; exact hl
  · intro z hz
    show set s.fin y true z = true
    by_cases hzx : z = y
    · subst hzx; exact set_same _ _ _
    · rw [set_other _ _ hzx]; exact hz
  · show ∃ x a b a' b', Beside A t0 _ (abort r y r.chain) x a b a' b'
    rw [hab]
    by_cases hxy : x = y
    · subst hxy
      have e : a.dropWhile (fun u => u.xid == x) = [] :=
        drop_all (fun v hv => by simp [hp.above v hv])
      rw [e] at hdr
      simp only [if_true]
      exact ⟨x, [], b, [], b', ⟨hdr, hp.below, by simp, by simp, List.Pairwise.nil⟩, rfl, hb.below,
        by simp, fun _ => rfl, hb.lookb, hb.lookb, fun _ => ⟨rfl, by simp⟩⟩
    · have e : a.dropWhile (fun u => u.xid == y) = a :=
        drop_none (fun v hv => by simp [hp.above v hv, hxy])
      rw [e] at hdr
      simp only [hxy, if_false]
      refine ⟨x, a, b, a', b', ⟨hdr, hp.below, hp.above, ?_, hp.vers⟩, rfl, hb.below, hb.above,
        hb.empty, hb.lookb, hb.look, hb.exact⟩
      intro hne
      show set s.fin y true x = false
      rw [set_other _ _ hxy]; exact hp.open' hne

/-- One record, once the two rows are beside each other; the replay does not stop. -/
theorem sync_step {A : Nat → Prop} {t0 : Nat} {late : Bool} {s s' : PSt} {r : St} {e : Ev} {rc : Rec}
    (hi : PInv s) (h : Sync A t0 s r) (hA : ∀ x, subtran x e = true → A x)
    (hs : pstep s e = some (s', rc)) : ∃ r', rstep late r rc = some r' ∧ Sync A t0 s' r' := by
  cases e with
  | see x =>
    obtain ⟨hx, rfl, rfl⟩ := step_see hs
    refine ⟨_, rfl, h.others rfl rfl h.done h.layered rfl rfl (fun _ hz => hz) rfl ?_⟩
    obtain ⟨x, a, b, a', b', hb⟩ := h.beside
    exact ⟨x, a, b, a', b', ⟨hb.prim.eq, hb.prim.below, hb.prim.above, hb.prim.open', hb.prim.vers⟩,
      hb.eq, hb.below, hb.above, hb.empty, hb.lookb, hb.look, hb.exact⟩
  | ins x v =>
    obtain ⟨hp, rfl, _⟩ := step_ins hs
    obtain ⟨hc, h'⟩ := sync_put hi h hp
    exact ⟨_, by simp only [rstep, hc], h'⟩
  | upd x v =>
    obtain ⟨hp, rfl, hl⟩ := step_upd hs
    obtain ⟨hc, h'⟩ := sync_put hi h hp
    cases late with
    | false => exact ⟨_, by simp only [rstep, hc, Bool.false_eq_true, if_false], h'⟩
    | true => exact ⟨_, by simp only [rstep, hc, if_true], sync_putIf hi h hp hl⟩
  | del x =>
    obtain ⟨u, d, hc, hu, hp, rfl⟩ := step_del hs
    obtain ⟨hcf, h'⟩ := sync_del hi h hc hu hp
    exact ⟨_, by simp only [rstep, hcf], h'⟩
  | sp x =>
    obtain ⟨hx, rfl, rfl⟩ := step_sp hs
    exact ⟨_, rfl, sync_sp hi h (hA x (by simp [subtran])) hx⟩
  | rb x =>
    obtain ⟨hx, id, t, rest, hsp, rfl, rfl⟩ := step_rb hs
    exact ⟨_, rfl, sync_rb hi h (hA x (by simp [subtran])) hx hsp⟩
  | fin x ok =>
    cases ok with
    | true =>
      obtain ⟨hx, rfl, rfl⟩ := step_commit hs
      exact ⟨_, by simp only [rstep, if_true], sync_commit h⟩
    | false =>
      obtain ⟨hx, rfl, rfl⟩ := step_abort hs
      exact ⟨_, by simp only [rstep, Bool.false_eq_true, if_false], sync_abort hi h hx⟩

theorem sync_run {A : Nat → Prop} {t0 : Nat} {late : Bool} {es : List Ev} {s s' : PSt} {r : St}
    {rs : List Rec} (hi : PInv s) (h : Sync A t0 s r)
    (hA : ∀ x, (∃ e ∈ es, subtran x e = true) → A x) (hs : prun s es = some (s', rs)) :
    ∃ r', replay late r rs = some r' ∧ Sync A t0 s' r' := by
  induction es generalizing s r rs with
  | nil =>
    obtain ⟨rfl, rfl⟩ := Prod.mk.inj (Option.some.inj hs)
    exact ⟨r, rfl, h⟩
  | cons e es ih =>
    obtain ⟨s1, rc, rs', h1, h2, rfl⟩ := prun_cons hs
    obtain ⟨r1, hr1, hs1⟩ := sync_step (late := late) hi h (fun x hx => hA x ⟨e, by simp, hx⟩) h1
    obtain ⟨r', hr', hs'⟩ := ih (pstep_inv hi h1) hs1
      (fun x ⟨f, hf, hx⟩ => hA x ⟨f, by simp [hf], hx⟩) h2
    exact ⟨r', by simp only [replay, hr1, hr'], hs'⟩

/-- The end of recovery. -/
theorem sync_end {A : Nat → Prop} {t0 : Nat} {s : PSt} {r : St} (hi : PInv s) (h : Sync A t0 s r) :
    ended r = committed s := by
  obtain ⟨x, a, b, a', b', hb⟩ := h.beside
  have h1 : s.chain.dropWhile (fun v => !s.done v.xid) = b := by
    rw [hb.prim.eq, drop_append (fun v hv => by simp [hb.prim.below v hv]), drop_all]
    · rfl
    · intro v hv
      have := hi.live (hb.prim.open' (by rintro rfl; simp at hv))
      simp [hb.prim.above v hv, this]
  have h2 : r.chain.dropWhile (fun v => undone r v && (!v.img || (r.ck v.xid).isSome)) = b' := by
    rw [hb.eq, drop_append (fun v hv => by simp [undone, h.done, hb.below v hv]), drop_all]
    · rfl
    · intro v hv
      have hne : a ≠ [] := by
        intro he
        rw [hb.empty he] at hv; simp at hv
      have hf := hb.prim.open' hne
      have hd := hi.live hf
      have hvx := hb.above v hv
      by_cases hA : A x
      · obtain ⟨e1, e2⟩ := hb.exact hA
        rw [e1] at hv
        simp [undone, h.done, hvx, hd, (e2 v hv).1]
      · simp [undone, h.done, hvx, hd, h.ck x hf hA]
  rw [ended, committed, h1, h2, top_look, top_look, hb.lookb]

end Verif.Image
