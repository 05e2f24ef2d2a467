import Verif.Extents.Spec
import Verif.Extents.Serial

namespace Verif.Extents

/-! ## From counting to the plain statements -/

theorem noOverlap_of_cover {l : List Ext} (h : ∀ b, cover l b ≤ 1) : NoOverlap l := by
  unfold NoOverlap
  induction l with
  | nil => exact List.Pairwise.nil
  | cons x l ih =>
    refine List.Pairwise.cons ?_ (ih (fun b => ?_))
    · intro y hy b hb
      have := cover_mem_of hy hb.2.1 hb.2.2
      have h1 := h b
      rw [cover_cons, if_pos (show x.1 ≤ b ∧ b < x.1 + x.2 from hb.1)] at h1
      omega
    · have := h b
      rw [cover_cons] at this
      omega

theorem range_single (o k N : Nat) :
    ((List.range N).map (fun b => if o ≤ b ∧ b < o + k then 1 else 0)).sum = min N (o + k) - min N o := by
  induction N with
  | zero => simp
  | succ n ih =>
    rw [List.range_succ, List.map_append, List.sum_append, ih]
    simp only [List.map_cons, List.map_nil, List.sum_cons, List.sum_nil]
    split <;> omega

theorem sum_map_add {α : Type} (l : List α) (f g : α → Nat) :
    (l.map (fun b => f b + g b)).sum = (l.map f).sum + (l.map g).sum := by
  induction l with
  | nil => rfl
  | cons a l ih => simp [ih]; omega

theorem size_eq_cover {l : List Ext} {N : Nat} (h : ∀ x ∈ l, x.1 + x.2 ≤ N) :
    size l = ((List.range N).map (cover l)).sum := by
  induction l with
  | nil =>
    simp only [size_nil]
    have : (cover ([] : List Ext)) = fun _ => 0 := rfl
    rw [this]
    generalize List.range N = r
    induction r with
    | nil => rfl
    | cons a r ih => simpa using ih
  | cons x l ih =>
    have hx := h x (by simp)
    have : cover (x :: l) = fun b => (if x.1 ≤ b ∧ b < x.1 + x.2 then 1 else 0) + cover l b := by
      funext b; exact cover_cons x l b
    rw [this, sum_map_add, range_single, size_cons, ih (fun y hy => h y (by simp [hy]))]
    omega

theorem sum_const_one (N : Nat) (f : Nat → Nat) (h : ∀ b, b < N → f b = 1) :
    ((List.range N).map f).sum = N := by
  induction N with
  | zero => rfl
  | succ n ih =>
    rw [List.range_succ, List.map_append, List.sum_append, ih (fun b hb => h b (by omega))]
    simp [h n (by omega)]

theorem ext_inside {l : List Ext} {N : Nat} (h : ∀ b, N ≤ b → cover l b = 0) (hp : ∀ x ∈ l, 0 < x.2) :
    ∀ x ∈ l, x.1 + x.2 ≤ N := by
  intro x hx
  apply Decidable.byContradiction
  intro hc
  have := hp x hx
  have := cover_mem_of hx (b := x.1 + x.2 - 1) (by omega) (by omega)
  have := h (x.1 + x.2 - 1) (by omega)
  omega

section
variable {s : State}

theorem Inv.outside (h : Inv s) : ∀ b, s.fileLen ≤ b → cover (s.used ++ s.lo) b = 0 := by
  intro b hb
  have := h.foc.cov b
  rw [if_neg (by omega)] at this
  rw [cover_append]; omega

theorem Inv.rest (h : Inv s) (hr : AtRest s) : s.ol.Perm s.lo ∧ s.numFree = size s.lo ∧
    ∀ b, cover (s.used ++ s.lo) b = if b < s.fileLen then 1 else 0 := by
  obtain ⟨h1, h2, h3⟩ := idle_flat (A := s.procs) (B := []) (by simpa [AtRest] using hr)
  rw [List.append_nil] at h1 h2 h3
  have hf := h.foc
  rw [h1, h2, h3] at hf
  refine ⟨by simpa [olHold] using hf.perm, by simpa [freeHold, hold, size_nil] using hf.cnt, ?_⟩
  intro b
  have := hf.cov b
  simp only [hold, cover_nil] at this
  rw [cover_append]; omega

end

/-! ## C07 -/

/-- **C07**, any interleaving: whatever any number of processes do, extents in
use do not overlap each other or a free extent, they all lie inside the file, and
none of the `FATAL` branches or assertions is reached. -/
theorem C07_no_double_handout (n : Nat) (σ : Sched) :
    let s := (init n).run σ
    NoFatal s ∧ NoOverlap (s.used ++ s.lo) ∧ (∀ x ∈ s.used ++ s.lo, 0 < x.2 ∧ x.1 + x.2 ≤ s.fileLen) := by
  intro s
  have h : Inv s := inv_run (inv_init n) σ
  have hp : ∀ x ∈ s.used ++ s.lo, 0 < x.2 := by
    intro x hx
    rcases List.mem_append.1 hx with hx | hx
    · exact h.foc.posUsed x hx
    · exact h.foc.posLo x hx
  refine ⟨?_, ?_, ?_⟩
  · intro p hp hf
    subst hf
    exact h.wf _ hp
  · apply noOverlap_of_cover
    intro b
    have := h.foc.cov b
    rw [cover_append]
    split at this <;> omega
  · intro x hx
    exact ⟨hp x hx, ext_inside h.outside hp x hx⟩

/-- **C07**, conservation: when no operation is in progress every block of the
file is either in use or free, the lengths add up to the file size, and
`numFreeBlocks` is the number of free blocks. -/
theorem C07_conservation (n : Nat) (σ : Sched) (hr : AtRest ((init n).run σ)) :
    let s := (init n).run σ
    total s.used + total s.lo = s.fileLen ∧ s.numFree = total s.lo ∧
      ∀ b, b < s.fileLen ↔ ∃ x ∈ s.used ++ s.lo, Has x b := by
  intro s
  have h : Inv s := inv_run (inv_init n) σ
  have hin := (C07_no_double_handout n σ).2.2
  obtain ⟨_, h2, h3⟩ := h.rest hr
  refine ⟨?_, h2, ?_⟩
  · have := size_eq_cover (l := s.used ++ s.lo) (N := s.fileLen) (fun x hx => (hin x hx).2)
    rw [sum_const_one _ _ (fun b hb => by rw [h3 b, if_pos hb]), size_append] at this
    exact this
  · intro b
    constructor
    · intro hb
      have := h3 b
      rw [if_pos hb] at this
      have hpos : 0 < cover (s.used ++ s.lo) b := by omega
      unfold cover at hpos
      rw [List.countP_pos_iff] at hpos
      obtain ⟨x, hx, hxb⟩ := hpos
      refine ⟨x, hx, ?_⟩
      simpa [Has] using hxb
    · rintro ⟨x, hx, hb⟩
      exact Nat.lt_of_lt_of_le hb.2 (hin x hx).2

/-- Two processes: allocate, free and re-allocate concurrently; at rest, with a
remainder and a merged extent. -/
example :
    let s := (init 2).run ([(0, .get 4), (0, .get 2), (1, .get 3), (0, .free 2), (0, .go), (0, .go), (0, .go), (1, .free 0)] ++
      (List.replicate 12 [(0, Cmd.go), (1, Cmd.go)]).flatten ++ [(0, .get 3)] ++
      List.replicate 4 (0, .go))
    AtRest s ∧ s.used = [(6, 3), (4, 2)] ∧ s.lo = [(0, 4)] ∧ s.ol = [(0, 4)] := by
  refine ⟨?_, ?_⟩
  · unfold AtRest; decide
  · decide

/-! ## C08 -/

/-- **C08**, any interleaving: whenever no operation is in progress both indexes
hold the same extents, each once, and these are disjoint. -/
theorem C08_indexes_agree (n : Nat) (σ : Sched) (hr : AtRest ((init n).run σ)) :
    let s := (init n).run σ
    s.ol.Perm s.lo ∧ s.lo.Nodup ∧ NoOverlap s.lo := by
  intro s
  have h : Inv s := inv_run (inv_init n) σ
  have hno := (C07_no_double_handout n σ).2.1
  have hlo : NoOverlap s.lo := (List.pairwise_append.1 hno).2.1
  refine ⟨(h.rest hr).1, ?_, hlo⟩
  refine List.Pairwise.imp_of_mem ?_ hlo
  intro x y hx _ hxy hc
  subst hc
  have := h.foc.posLo x hx
  exact hxy x.1 ⟨⟨by omega, by omega⟩, ⟨by omega, by omega⟩⟩

theorem solo_of_rest {s : State} (h : Inv s) (hr : AtRest s) (hc : NoAdj s.lo) {i : Nat}
    (hi : i < s.procs.length) : Solo s i .idle := by
  refine ⟨h, ?_, ?_, hc⟩
  · rw [List.getElem?_eq_getElem hi, hr _ (List.getElem_mem hi)]
  · intro j p _ hj
    exact hr p (List.mem_of_getElem? hj)

theorem Solo.atRest {s : State} {i : Nat} (h : Solo s i .idle) : AtRest s := by
  intro p hp
  obtain ⟨j, hj, rfl⟩ := List.getElem_of_mem hp
  by_cases hji : j = i
  · subst hji
    have := h.at_
    rw [List.getElem?_eq_getElem hj] at this
    exact Option.some.inj this
  · exact h.rest j _ hji (by rw [List.getElem?_eq_getElem hj])

theorem procs_step_length (s : State) (i : Nat) (c : Cmd) :
    (s.step i c).procs.length = s.procs.length := by
  unfold State.step startGet startFree extend
  cases s.procs[i]? with
  | none => rfl
  | some pc =>
    cases pc <;> dsimp only <;> (repeat' (first | rfl | (simp; done) | split))

theorem procs_run_length (s : State) (σ : Sched) : (s.run σ).procs.length = s.procs.length := by
  unfold State.run
  induction σ generalizing s with
  | nil => rfl
  | cons m σ ih => rw [List.foldl_cons, ih, procs_step_length]

theorem run_cons (s : State) (m : Nat × Cmd) (σ : Sched) :
    s.run (m :: σ) = (s.step m.1 m.2).run σ := rfl

theorem runOps_single (s : State) (o : Op) : runOps s [o] = s.run o.sched := rfl

theorem fileLen_go (s : State) (i : Nat) : (s.step i .go).fileLen = s.fileLen := by
  unfold State.step
  cases s.procs[i]? with
  | none => rfl
  | some pc =>
    cases pc <;> dsimp only <;> (repeat' (first | rfl | split))

theorem fileLen_gos (s : State) (i n : Nat) :
    (s.run (List.replicate n (i, .go))).fileLen = s.fileLen := by
  induction n generalizing s with
  | zero => rfl
  | succ n ih =>
    rw [List.replicate_succ]
    have := ih (s.step i .go)
    rw [fileLen_go] at this
    exact this

theorem bestFit_none {need : Nat} {l : List Ext} (h : bestFit need l = none) :
    ∀ y ∈ l, y.2 < need := by
  induction l with
  | nil => simp
  | cons w ws ih =>
    simp only [bestFit] at h
    split at h
    · split at h
      · cases h
      · split at h <;> cases h
    · intro y hy
      rcases List.mem_cons.1 hy with rfl | hy
      · omega
      · exact ih h y hy

/-- What one uncontended `get_extent` does to a coalesced state at rest. -/
theorem get_op {s : State} (h : Inv s) (hr : AtRest s) (hc : NoAdj s.lo) {i need : Nat}
    (hi : i < s.procs.length) (hn : 0 < need) :
    let s' := s.run (Op.get i need).sched
    Inv s' ∧ AtRest s' ∧ NoAdj s'.lo ∧ (∃ o, s'.used = (o, need) :: s.used) ∧
      (∀ x ∈ s.lo, need ≤ x.2 → s'.fileLen = s.fileLen) := by
  intro s'
  have hsolo := solo_of_rest h hr hc hi
  have hs' : s' = (s.step i (.get need)).run (List.replicate 3 (i, .go)) := by
    show s.run (Op.get i need).sched = _
    rw [Op.sched, run_cons]
  have hstep : s.step i (.get need) = startGet s i need := by
    unfold State.step
    rw [hsolo.at_]
  have hinv1 : Inv (s.step i (.get need)) := inv_step h i _
  have key : ∀ pc o, Solo (s.step i (.get need)) i pc → rank pc ≤ 3 →
      usedAfter (s.step i (.get need)).used pc = (o, need) :: s.used →
      Inv s' ∧ AtRest s' ∧ NoAdj s'.lo ∧ (∃ o, s'.used = (o, need) :: s.used) := by
    intro pc o hso hrk hu
    have := hso.finish 3 hrk
    rw [← hs'] at this
    exact ⟨this.1.inv, this.1.atRest, this.1.ser, o, by rw [this.2, hu]⟩
  have hfl : s'.fileLen = (s.step i (.get need)).fileLen := by rw [hs', fileLen_gos]
  have hext : s.step i (.get need) = extend s need →
      Inv s' ∧ AtRest s' ∧ NoAdj s'.lo ∧ (∃ o, s'.used = (o, need) :: s.used) := by
    intro he
    refine key .idle s.fileLen ⟨hinv1, ?_, ?_, ?_⟩ (by simp [rank]) (by rw [he]; rfl)
    · rw [he]; exact hsolo.at_
    · rw [he]; exact hsolo.rest
    · rw [he]; exact hc
  by_cases h1 : s.numFree < need
  · have he : s.step i (.get need) = extend s need := by
      rw [hstep]; simp [startGet, h1]; omega
    obtain ⟨a, b, c, d⟩ := hext he
    refine ⟨a, b, c, d, ?_⟩
    intro x hx hle
    exfalso
    have := (h.rest hr).2.1
    have := size_erase hx
    omega
  · cases hb : bestFit need s.lo with
    | none =>
      have he : s.step i (.get need) = extend s need := by
        rw [hstep]; simp only [startGet, hb, ite_self]; rw [if_neg (by omega)]
      obtain ⟨a, b, c, d⟩ := hext he
      refine ⟨a, b, c, d, ?_⟩
      intro x hx hle
      have := bestFit_none hb x hx
      omega
    | some x =>
      obtain ⟨hm, hge⟩ := bestFit_some hb
      have he : s.step i (.get need) =
          { s with lo := s.lo.erase x, numFree := s.numFree - need,
                   procs := s.procs.set i (.g1 x.1 x.2 need) } := by
        rw [hstep]; simp only [startGet, hb]; rw [if_neg (by omega), if_neg h1]
      have hres := key (.g1 x.1 x.2 need) x.1 ⟨hinv1, ?_, ?_, ?_⟩ (by simp [rank]) (by rw [he]; rfl)
      · obtain ⟨a, b, c, d⟩ := hres
        exact ⟨a, b, c, d, fun y hy hle => by rw [hfl, he]⟩
      · rw [he]
        dsimp only
        rw [List.getElem?_set]; simp [hi]
      · intro j p hj hjp
        rw [he] at hjp
        dsimp only at hjp
        rw [List.getElem?_set, if_neg (Ne.symm hj)] at hjp
        exact hsolo.rest j p hj hjp
      · rw [he]
        exact ser_startGet hsolo.foc.1 hc hm hn hge

/-- What one uncontended `free_extent` does to a coalesced state at rest. -/
theorem free_op {s : State} (h : Inv s) (hr : AtRest s) (hc : NoAdj s.lo) {i k : Nat}
    (hi : i < s.procs.length) :
    let s' := s.run (Op.free i k).sched
    Inv s' ∧ AtRest s' ∧ NoAdj s'.lo ∧ s'.used = s.used.eraseIdx k ∧ s'.fileLen = s.fileLen := by
  intro s'
  have hsolo := solo_of_rest h hr hc hi
  have hs' : s' = (s.step i (.free k)).run (List.replicate 8 (i, .go)) := by
    show s.run (Op.free i k).sched = _
    rw [Op.sched, run_cons]
  have hstep : s.step i (.free k) = startFree s i k := by
    unfold State.step
    rw [hsolo.at_]
  have hinv1 : Inv (s.step i (.free k)) := inv_step h i _
  have hfl : s'.fileLen = (s.step i (.free k)).fileLen := by rw [hs', fileLen_gos]
  have key : ∀ pc, Solo (s.step i (.free k)) i pc → rank pc ≤ 8 →
      usedAfter (s.step i (.free k)).used pc = s.used.eraseIdx k →
      Inv s' ∧ AtRest s' ∧ NoAdj s'.lo ∧ s'.used = s.used.eraseIdx k := by
    intro pc hso hrk hu
    have := hso.finish 8 hrk
    rw [← hs'] at this
    exact ⟨this.1.inv, this.1.atRest, this.1.ser, by rw [this.2, hu]⟩
  cases hk : s.used[k]? with
  | none =>
    have he : s.step i (.free k) = s := by rw [hstep]; simp only [startFree, hk]
    have := key .idle (by rw [he]; exact hsolo) (by simp [rank]) (by
      rw [he]
      rw [List.eraseIdx_of_length_le (by simpa using hk)]; rfl)
    exact ⟨this.1, this.2.1, this.2.2.1, this.2.2.2, by rw [hfl, he]⟩
  | some x =>
    have he : s.step i (.free k) =
        { s with used := s.used.eraseIdx k, numFree := s.numFree + x.2,
                 procs := s.procs.set i (.f0 x.1 x.2) } := by
      rw [hstep]; simp only [startFree, hk]
    have hres := key (.f0 x.1 x.2) ⟨hinv1, ?_, ?_, ?_⟩ (by simp [rank]) (by rw [he]; rfl)
    · exact ⟨hres.1, hres.2.1, hres.2.2.1, hres.2.2.2, by rw [hfl, he]⟩
    · rw [he]
      dsimp only
      rw [List.getElem?_set]; simp [hi]
    · intro j p hj hjp
      rw [he] at hjp
      dsimp only at hjp
      rw [List.getElem?_set, if_neg (Ne.symm hj)] at hjp
      exact hsolo.rest j p hj hjp
    · rw [he]; exact hc

theorem nop_run {s : State} {i : Nat} (hi : ¬ i < s.procs.length) (c : Cmd) (n : Nat) :
    s.run ((i, c) :: List.replicate n (i, .go)) = s := by
  have hst : ∀ c, s.step i c = s := by
    intro c
    unfold State.step
    rw [List.getElem?_eq_none (by omega)]
  simp only [State.run, List.foldl_cons, hst]
  induction n with
  | zero => rfl
  | succ n ih => rw [List.replicate_succ, List.foldl_cons, hst]; exact ih

theorem ops_inv (n : Nat) (ops : List Op) :
    let s := runOps (init n) ops
    Inv s ∧ AtRest s ∧ NoAdj s.lo ∧ s.procs.length = n := by
  have gen : ∀ (ops : List Op) (s : State), Inv s → AtRest s → NoAdj s.lo → s.procs.length = n →
      Inv (runOps s ops) ∧ AtRest (runOps s ops) ∧ NoAdj (runOps s ops).lo ∧
        (runOps s ops).procs.length = n := by
    intro ops
    induction ops with
    | nil => intro s h1 h2 h3 h4; exact ⟨h1, h2, h3, h4⟩
    | cons o ops ih =>
      intro s h1 h2 h3 h4
      unfold runOps
      rw [List.foldl_cons]
      have hlen : (s.run o.sched).procs.length = n := by rw [procs_run_length, h4]
      cases o with
      | get i need =>
        by_cases hi : i < s.procs.length
        · by_cases hn : 0 < need
          · obtain ⟨a, b, c, _⟩ := get_op h1 h2 h3 hi hn
            exact ih _ a b c hlen
          · have : need = 0 := by omega
            subst this
            have hsolo := solo_of_rest h1 h2 h3 hi
            have hst : s.step i (.get 0) = s := by
              unfold State.step; rw [hsolo.at_]; simp [startGet]
            have hgo : s.run (Op.get i 0).sched = s.run (List.replicate 3 (i, .go)) := by
              show (s.step i (.get 0)).run _ = _
              rw [hst]
            have := (hsolo.finish 3 (by simp [rank])).1
            rw [← hgo] at this
            exact ih _ this.inv this.atRest this.ser hlen
        · have : s.run (Op.get i need).sched = s := nop_run hi _ _
          rw [this]
          exact ih _ h1 h2 h3 h4
      | free i k =>
        by_cases hi : i < s.procs.length
        · obtain ⟨a, b, c, _⟩ := free_op (k := k) h1 h2 h3 hi
          exact ih _ a b c hlen
        · have : s.run (Op.free i k).sched = s := nop_run hi _ _
          rw [this]
          exact ih _ h1 h2 h3 h4
  refine gen ops _ (inv_init n) ?_ ?_ ?_
  · intro p hp; exact (List.mem_replicate.1 hp).2
  · intro x hx; cases hx
  · simp [init]

/-- **C08**, one operation after another: after any sequence of allocations and
releases no two free extents are adjacent (and every operation has completed). -/
theorem C08_coalesced (n : Nat) (ops : List Op) :
    let s := runOps (init n) ops
    AtRest s ∧ s.ol.Perm s.lo ∧ NoOverlap s.lo ∧ Coalesced s.lo := by
  have hh := ops_inv n ops
  dsimp only at hh ⊢
  generalize runOps (init n) ops = s at hh ⊢
  obtain ⟨h1, h2, h3, _⟩ := hh
  refine ⟨h2, (h1.rest h2).1, ?_, h3⟩
  apply noOverlap_of_cover
  intro b
  have := h1.foc.cov b
  split at this <;> omega

/-- **C07**: an allocation returns an extent of the requested length, all of
whose blocks were not in use; a release takes exactly that extent out of use. -/
theorem C07_operations (n : Nat) (ops : List Op) (i : Nat) (hi : i < n) :
    let s := runOps (init n) ops
    (∀ need, 0 < need → ∃ o, (runOps s [.get i need]).used = (o, need) :: s.used ∧
      ∀ b, Has (o, need) b → ∀ x ∈ s.used, ¬ Has x b) ∧
    (∀ k, (runOps s [.free i k]).used = s.used.eraseIdx k ∧
      (runOps s [.free i k]).fileLen = s.fileLen) := by
  have hh := ops_inv n ops
  dsimp only at hh ⊢
  generalize runOps (init n) ops = s at hh ⊢
  obtain ⟨h1, h2, h3, h4⟩ := hh
  constructor
  · intro need hn
    rw [runOps_single]
    obtain ⟨a, _, _, ⟨o, ho⟩, _⟩ := get_op h1 h2 h3 (i := i) (by rw [h4]; exact hi) hn
    refine ⟨o, ho, ?_⟩
    intro b hb x hx hxb
    have hc := a.foc.cov b
    rw [ho, cover_cons, if_pos (show (o, need).1 ≤ b ∧ b < (o, need).1 + (o, need).2 from hb)] at hc
    have := cover_mem_of hx hxb.1 hxb.2
    split at hc <;> omega
  · intro k
    rw [runOps_single]
    obtain ⟨_, _, _, d, e⟩ := free_op (k := k) h1 h2 h3 (i := i) (by rw [h4]; exact hi)
    exact ⟨d, e⟩

/-- **C07**, freed space is available again: as long as some run of `need`
consecutive blocks of the file is not in use, an allocation of `need` blocks does
not extend the file. -/
theorem C07_reuse (n : Nat) (ops : List Op) (i need o : Nat) (hi : i < n) (hn : 0 < need)
    (hin : o + need ≤ (runOps (init n) ops).fileLen)
    (hfree : ∀ b, Has (o, need) b → ∀ x ∈ (runOps (init n) ops).used, ¬ Has x b) :
    (runOps (runOps (init n) ops) [.get i need]).fileLen = (runOps (init n) ops).fileLen := by
  obtain ⟨h1, h2, h3, h4⟩ := ops_inv n ops
  generalize runOps (init n) ops = s at *
  obtain ⟨_, _, _, _, hget⟩ := get_op h1 h2 h3 (i := i) (by rw [h4]; exact hi) hn
  have hcov := (h1.rest h2).2.2
  have hlo : ∀ b, o ≤ b → b < o + need → ∃ x ∈ s.lo, Has x b := by
    intro b hb1 hb2
    have hc := hcov b
    rw [if_pos (by omega), cover_append] at hc
    have hu : cover s.used b = 0 := by
      apply Decidable.byContradiction
      intro hne
      have hpos : 0 < cover s.used b := by omega
      unfold cover at hpos
      rw [List.countP_pos_iff] at hpos
      obtain ⟨x, hx, hxb⟩ := hpos
      exact hfree b ⟨hb1, hb2⟩ x hx (by simpa [Has] using hxb)
    have hpos : 0 < cover s.lo b := by omega
    unfold cover at hpos
    rw [List.countP_pos_iff] at hpos
    obtain ⟨x, hx, hxb⟩ := hpos
    exact ⟨x, hx, by simpa [Has] using hxb⟩
  -- the extent containing the first block contains the whole run
  obtain ⟨x, hx, hx1, hx2⟩ := hlo o (by omega) (by omega)
  have hend : o + need ≤ x.1 + x.2 := by
    apply Decidable.byContradiction
    intro hlt
    obtain ⟨y, hy, hy1, hy2⟩ := hlo (x.1 + x.2) (by omega) (by omega)
    by_cases hadj : y.1 = x.1 + x.2
    · exact h3 x hx y hy hadj.symm
    · have hpx := h1.foc.posLo x hx
      have : x = y := h1.foc.disj hx hy (x.1 + x.2 - 1) (by omega) (by omega) (by omega) (by omega)
      subst this
      omega
  rw [runOps_single]
  exact hget x hx (by omega)

/-- Hypotheses of `C07_reuse` are met: five blocks are free in the middle of a
file of ten after two releases merged them. -/
example :
    let s := runOps (init 1) [.get 0 2, .get 0 3, .get 0 2, .get 0 3, .free 0 2, .free 0 1]
    s.fileLen = 10 ∧ s.lo = [(2, 5)] ∧ s.used = [(7, 3), (0, 2)] ∧
      (runOps s [.get 0 5]).used = [(2, 5), (7, 3), (0, 2)] := by decide

/-- Merging is not guaranteed when two neighbouring extents are released *at the
same time*: each misses the other, both stay free and unmerged (harmless for C07;
C08 claims coalescing for one operation after another only). -/
theorem C08_concurrent_release_unmerged :
    ∃ σ, AtRest ((init 2).run σ) ∧ ¬ Coalesced ((init 2).run σ).lo := by
  refine ⟨[(0, .get 1), (0, .get 1), (0, .free 0), (1, .free 0), (0, .go), (1, .go)] ++
    (List.replicate 6 [(0, Cmd.go), (1, Cmd.go)]).flatten, ?_, ?_⟩
  · unfold AtRest; decide
  · intro h
    exact h (0, 1) (by decide) (1, 1) (by decide) rfl

/-! ## Listing and backend-local lists (part of C07) -/

/-- `foreach_free_extent` reports a free extent of any length as consecutive
pieces that cover it exactly and fit the 16-bit length of `FileExtent`. -/
theorem C07_listing (off len : Nat) (h : 0 < len) :
    (∀ p ∈ pieces off len, 0 < p.2 ∧ p.2 < 2 ^ 16) ∧ NoOverlap (pieces off len) ∧
      ∀ b, Has (off, len) b ↔ ∃ p ∈ pieces off len, Has p b := by
  have hmem : ∀ p ∈ pieces off len, off ≤ p.1 ∧ p.1 + p.2 ≤ off + len := by
    fun_induction pieces off len with
    | case1 off len hlt ih =>
      intro p hp
      rcases List.mem_cons.1 hp with rfl | hp
      · dsimp only; omega
      · have := ih (by omega) p hp; omega
    | case2 off len hge =>
      intro p hp; simp at hp; subst hp; simp
  clear hmem
  fun_induction pieces off len with
  | case1 off len hlt ih =>
    obtain ⟨i1, i2, i3⟩ := ih (by omega)
    refine ⟨?_, ?_, ?_⟩
    · intro p hp
      rcases List.mem_cons.1 hp with rfl | hp
      · dsimp only; omega
      · exact i1 p hp
    · refine List.Pairwise.cons ?_ i2
      intro y hy b hb
      have := (i3 b).2 ⟨y, hy, hb.2⟩
      have h1 := hb.1
      unfold Has at this h1
      dsimp only at this h1
      omega
    · intro b
      constructor
      · intro hb
        by_cases hb2 : b < off + 65535
        · exact ⟨_, List.mem_cons_self, hb.1, hb2⟩
        · obtain ⟨p, hp, hpb⟩ := (i3 b).1 (by unfold Has at *; dsimp only at *; omega)
          exact ⟨p, List.mem_cons_of_mem _ hp, hpb⟩
      · rintro ⟨p, hp, hpb⟩
        rcases List.mem_cons.1 hp with rfl | hp
        · unfold Has at *; dsimp only at *; omega
        · have := (i3 b).2 ⟨p, hp, hpb⟩
          unfold Has at *; dsimp only at *; omega
  | case2 off len hge =>
    refine ⟨?_, ?_, ?_⟩
    · intro p hp; simp at hp; subst hp; dsimp only; omega
    · simp [NoOverlap]
    · intro b; simp

example : pieces 7 131070 = [(7, 65535), (65542, 65535)] := by
  rw [pieces, if_pos (by omega), pieces, if_neg (by omega)]

theorem localPopLoop_cover {need : Nat} {pre l rest : List Ext} {x : Ext} (hn : 0 < need)
    (h : localPopLoop need pre l = some (x, rest)) :
    x.2 = need ∧ (∀ b, cover (pre ++ l) b = cover (x :: rest) b) ∧
      size (pre ++ l) = size (x :: rest) := by
  induction l generalizing pre with
  | nil => simp [localPopLoop] at h
  | cons y ys ih =>
    simp only [localPopLoop] at h
    split at h
    · have := ih h
      simpa using this
    · split at h
      · rename_i h1 h2
        cases h
        obtain ⟨yo, yl⟩ := y
        dsimp only at h2
        subst h2
        cases hl : ys.getLast? with
        | none =>
          have : ys = [] := by simpa using hl
          subst this
          refine ⟨rfl, ?_, ?_⟩
          · intro b; simp only [cover_append, cover_cons, cover_nil]; omega
          · simp only [size_append, size_cons, size_nil]; omega
        | some z =>
          have hys : ys = ys.dropLast ++ [z] := by
            obtain ⟨h, rfl⟩ := List.getLast?_eq_some_iff.1 hl
            simp
          refine ⟨rfl, ?_, ?_⟩
          · intro b
            dsimp only
            rw [hys]
            simp only [cover_append, cover_cons, cover_nil, List.dropLast_concat]
            omega
          · dsimp only
            rw [hys]
            simp only [size_append, size_cons, size_nil, List.dropLast_concat]
            omega
      · cases h
        refine ⟨rfl, ?_, ?_⟩
        · intro b
          simp only [cover_append, cover_cons]
          split <;> split <;> split <;> omega
        · simp only [size_append, size_cons]; omega

/-- Backend-local (temporary table) trees: popping hands out exactly the requested
length out of the free list and keeps all the other blocks free. -/
theorem C07_local_pop (l rest : List Ext) (x : Ext) (need : Nat) (hn : 0 < need)
    (hl : NoOverlap l) (h : localPop l need = some (x, rest)) :
    x.2 = need ∧ NoOverlap (x :: rest) ∧ total (x :: rest) = total l ∧
      ∀ b, (∃ y ∈ l, Has y b) ↔ ∃ y ∈ x :: rest, Has y b := by
  obtain ⟨h1, h2, h3⟩ := localPopLoop_cover hn h
  have hcov : ∀ b, cover l b = cover (x :: rest) b := h2
  have hone : ∀ b, cover l b ≤ 1 := by
    intro b
    clear h h2 h3 hcov
    unfold NoOverlap at hl
    induction l with
    | nil => simp [cover_nil]
    | cons y ys ih =>
      rw [List.pairwise_cons] at hl
      rw [cover_cons]
      have := ih hl.2
      split
      · rename_i hy
        have : cover ys b = 0 := by
          apply Decidable.byContradiction
          intro hne
          have hpos : 0 < cover ys b := by omega
          unfold cover at hpos
          rw [List.countP_pos_iff] at hpos
          obtain ⟨z, hz, hzb⟩ := hpos
          exact hl.1 z hz b ⟨hy, by simpa [Has] using hzb⟩
        omega
      · omega
  have hmem : ∀ (m : List Ext) b, (∃ y ∈ m, Has y b) ↔ 0 < cover m b := by
    intro m b
    unfold cover
    rw [List.countP_pos_iff]
    simp [Has]
  refine ⟨h1, noOverlap_of_cover (fun b => by rw [← hcov]; exact hone b), h3.symm, ?_⟩
  intro b
  rw [hmem, hmem, hcov]

example : localPop (localPush [(3, 2), (9, 1)] (20, 4)) 2 = some ((3, 2), [(20, 4), (9, 1)]) ∧
    localPop [(3, 1), (9, 5)] 2 = some ((9, 2), [(3, 1), (11, 3)]) := by decide

end Verif.Extents
