import Verif.Rewind.Order
import Verif.Rewind.QueueProofs
import Verif.Rewind.CodecProofs
/-
Proofs about `Verif.Rewind.Order`.
-/
namespace Verif.Rewind

section
variable {α : Type}

/-- Actions of committing backends only. -/
def Act.adds : Act α → Bool
  | .reserve _ _ | .admit _ | .put _ | .tryCas _ | .look _ => true
  | _ => false

/-- Committing backends change nothing a checkpoint relies on. -/
theorem adds_frame {cf : Cfg} {q q' : Q α} {a : Act α} (ha : a.adds = true)
    (e : step cf q a = some q') : q'.c = q.c ∧ q'.r = q.r ∧ q'.e = q.e ∧ q.af ≤ q'.af ∧
      q'.comp = q.comp ∧ q'.disk = q.disk ∧ q'.lock = q.lock ∧ q'.out = q.out ∧
      ∃ l, q'.log = q.log ++ l := by
  cases a with
  | reserve p it =>
    simp only [step, doReserve] at e
    split at e
    · split at e
      · cases e
      · injection e with e; subst e
        exact ⟨rfl, rfl, rfl, Nat.le_refl _, rfl, rfl, rfl, rfl, it, rfl⟩
    · cases e
  | admit p =>
    simp only [step, doAdmit] at e
    split at e
    · split at e
      · injection e with e; subst e
        exact ⟨rfl, rfl, rfl, Nat.le_refl _, rfl, rfl, rfl, rfl, [], by simp⟩
      · cases e
    · cases e
  | put p =>
    simp only [step, doPut] at e
    split at e
    · split at e
      · cases e
      · injection e with e; subst e
        exact ⟨rfl, rfl, rfl, Nat.le_refl _, rfl, rfl, rfl, rfl, [], by simp⟩
    · cases e
  | tryCas p =>
    simp only [step, doCas] at e
    split at e
    · split at e
      · rename_i h
        injection e with e; subst e
        exact ⟨rfl, rfl, rfl, by simp only; omega, rfl, rfl, rfl, rfl, [], by simp⟩
      · split at e
        · injection e with e; subst e
          exact ⟨rfl, rfl, rfl, Nat.le_refl _, rfl, rfl, rfl, rfl, [], by simp⟩
        · injection e with e; subst e
          exact ⟨rfl, rfl, rfl, Nat.le_refl _, rfl, rfl, rfl, rfl, [], by simp⟩
    · cases e
  | look p =>
    simp only [step, doLook] at e
    split at e
    · split at e
      · injection e with e; subst e
        exact ⟨rfl, rfl, rfl, Nat.le_refl _, rfl, rfl, rfl, rfl, [], by simp⟩
      · injection e with e; subst e
        exact ⟨rfl, rfl, rfl, Nat.le_refl _, rfl, rfl, rfl, rfl, [], by simp⟩
    · cases e
  | _ => cases ha

/-- What holds while a checkpoint runs that began at position `b`. -/
structure CkInv (cf : Cfg) (b : Nat) (q : Q α) (k : Ck α) : Prop where
  inv : Inv cf q
  lock : q.lock = none
  cb : q.c ≤ b
  bp : b ≤ k.pos
  paf : k.pos ≤ q.af
  wr : k.written = (q.log.take k.pos).drop b
  ph2 : k.phase = 2 → q.r ≤ k.pos
  ph3 : k.phase ≠ 0 → k.phase ≠ 1 → k.phase ≠ 2 → q.e ≤ k.pos
  bf : k.phase = 2 → ∀ g, k.buf = some g → ∀ i, i < cf.blk → g i = q.disk (k.pos - k.pos % cf.blk + i)
  b1 : k.phase = 1 → k.buf = none

theorem ck_append {l : List α} {b p : Nat} (hb : b ≤ p) {x : Option α} (hx : x = l[p]?) (hp : p < l.length) :
    (l.take p).drop b ++ x.toList = (l.take (p + 1)).drop b := by
  rw [hx, List.getElem?_eq_getElem hp, List.take_add_one, List.getElem?_eq_getElem hp,
    List.drop_append_of_le_length (by simp; omega)]

theorem ckInv_step {cf : Cfg} {b : Nat} {q : Q α} {k : Ck α} (h : CkInv cf b q k) (hb : 0 < cf.blk)
    (hp : k.phase ≠ 0) (hbig : q.e < 2 ^ 31) : CkInv cf b q (ckStep cf q k) := by
  have hlen := h.inv.arl
  have h1 := h.inv.cr; have h2 := h.inv.re; have h3 := h.inv.eaf; have h4 := h.inv.afar
  have h5 := h.cb; have h6 := h.bp; have h7 := h.paf
  have ht : top q = q.e := by simp [top, h.lock]
  obtain ⟨pos, phase, buf, written⟩ := k
  simp only at *
  have hw : written = (q.log.take pos).drop b := h.wr
  unfold ckStep
  simp only
  split
  · exact absurd rfl hp
  · split
    · rename_i hlt
      refine { inv := h.inv, lock := h.lock, cb := h.cb, bp := by simp only; omega, paf := by simp only; omega
               wr := ?_, ph2 := by simp, ph3 := by simp, bf := ?_, b1 := h.b1 }
      · show written ++ _ = _
        rw [hw]
        exact ck_append h6 (h.inv.comp1 pos (by omega) hlt) (by omega)
      · simp
    · rename_i hlt
      exact { inv := h.inv, lock := h.lock, cb := h.cb, bp := h.bp, paf := h.paf, wr := h.wr
              ph2 := by intro _; simp only; omega, ph3 := by simp
              bf := by intro _ g hg; have := h.b1 rfl; simp only at this hg; rw [this] at hg; cases hg
              b1 := by simp }
  · split
    · rename_i hlt
      have hr := h.ph2 rfl
      simp only at hr
      -- the block in memory
      have hg : ∃ g : Nat → Option α, ckBuf cf q pos buf = g ∧
          ∀ i, i < cf.blk → g i = q.disk (pos - pos % cf.blk + i) := by
        refine ⟨_, rfl, ?_⟩
        intro i hi
        have hbf := h.bf rfl
        simp only at hbf
        revert hbf
        cases buf with
        | some g => intro hbf; exact hbf g rfl i hi
        | none => intro _; simp [ckBuf, startbuf, show pos < 2 ^ 31 by omega]
      obtain ⟨g, e, hg⟩ := hg
      rw [e]
      refine { inv := h.inv, lock := h.lock, cb := h.cb, bp := by simp only; omega, paf := by simp only; omega
               wr := ?_, ph2 := by intro _; simp only; omega, ph3 := by simp, bf := ?_, b1 := by simp }
      · show written ++ _ = _
        rw [hw]
        refine ck_append h6 ?_ (by omega)
        rw [hg _ (Nat.mod_lt _ hb)]
        have : pos - pos % cf.blk + pos % cf.blk = pos := by have := Nat.mod_le pos cf.blk; omega
        rw [this]
        exact h.inv.disk1 pos hr (by rw [ht]; exact hlt)
      · intro _ g' hg' i hi
        simp only at hg' ⊢
        split at hg'
        · cases hg'
        · rename_i hm
          injection hg' with hg'
          subst hg'
          rw [hg i hi]
          have hs : pos + 1 - (pos + 1) % cf.blk = pos - pos % cf.blk := by
            have hlt := Nat.mod_lt pos hb
            by_cases he : pos % cf.blk + 1 = cf.blk
            · exfalso
              apply hm
              rw [← Nat.div_add_mod pos cf.blk, Nat.add_assoc, he, Nat.mul_add_mod_self_left, Nat.mod_self]
            · have hb1 : 1 < cf.blk := by omega
              have : (pos + 1) % cf.blk = pos % cf.blk + 1 := by
                rw [Nat.add_mod, Nat.mod_eq_of_lt hb1, Nat.mod_eq_of_lt (by omega)]
              rw [this]
              omega
          rw [hs]
    · rename_i hlt
      exact { inv := h.inv, lock := h.lock, cb := h.cb, bp := h.bp, paf := h.paf, wr := h.wr
              ph2 := by simp, ph3 := by intro _ _ _; simp only; omega
              bf := by simp, b1 := by simp }
  · rename_i p0 p1 p2
    split
    · rename_i hlt
      have hr := h.ph3 p0 p1 p2
      simp only at hr
      refine { inv := h.inv, lock := h.lock, cb := h.cb, bp := by simp only; omega, paf := by simp only; omega
               wr := ?_, ph2 := fun hh => absurd hh p2, ph3 := by intro _ _ _; simp only; omega
               bf := ?_, b1 := fun hh => absurd hh p1 }
      · show written ++ _ = _
        rw [hw]
        exact ck_append h6 (h.inv.add1 pos hr (by omega)
          (by intro i hi; have := h.inv.pr i _ hi; omega)).1 (by omega)
      · exact fun hh => absurd hh p2
    · exact { inv := h.inv, lock := h.lock, cb := h.cb, bp := h.bp, paf := h.paf, wr := h.wr
              ph2 := by simp, ph3 := by simp, bf := by simp, b1 := by simp }

theorem ckInv_adds {cf : Cfg} (hcf : cf.Ok) {b : Nat} {q q' : Q α} {k : Ck α} {a : Act α}
    (ha : a.adds = true) (e : step cf q a = some q') (h : CkInv cf b q k) : CkInv cf b q' k := by
  obtain ⟨f1, f2, f3, f4, f5, f6, f7, f8, l, f9⟩ := adds_frame ha e
  refine { inv := inv_step hcf h.inv e, lock := by rw [f7]; exact h.lock, cb := by rw [f1]; exact h.cb
           bp := h.bp, paf := by have := h.paf; omega, wr := ?_, ph2 := by rw [f2]; exact h.ph2
           ph3 := by rw [f3]; exact h.ph3, bf := by rw [f6]; exact h.bf, b1 := h.b1 }
  rw [h.wr, f9, List.take_append_of_le_length]
  have := h.paf; have := h.inv.afar; have := h.inv.arl; omega

/-- A list of actions of committing backends and of the checkpoint. -/
def CkAct.mild : CkAct α → Bool
  | .ck => true
  | .act a => a.adds

theorem step_ck_adds {cf : Cfg} {q : Q α} {k : Ck α} {a : Act α} {as} (ha : a.adds = true) :
    ckRun cf (q, k) (.act a :: as) = (step cf q a).bind (fun q' => ckRun cf (q', k) as) := by
  cases a <;> first | rfl | cases ha

theorem ckRun_ok {cf : Cfg} (hcf : cf.Ok) {b a0 : Nat} : ∀ (as : List (CkAct α)) (q : Q α) (k : Ck α) (q' k'),
    CkInv cf b q k → (k.phase = 0 → a0 ≤ k.pos) → a0 ≤ q.af → q.e < 2 ^ 31 →
    (∀ a ∈ as, a.mild = true) →
    (∀ pre post, as = pre ++ .ck :: post → ∀ s, ckRun cf (q, k) pre = some s → s.2.phase ≠ 0) →
    ckRun cf (q, k) as = some (q', k') →
    CkInv cf b q' k' ∧ (k'.phase = 0 → a0 ≤ k'.pos) ∧ q'.c = q.c := by
  intro as
  induction as with
  | nil =>
    intro q k q' k' h h0 _ _ _ _ e
    simp only [ckRun, Option.some.injEq, Prod.mk.injEq] at e
    obtain ⟨rfl, rfl⟩ := e
    exact ⟨h, h0, rfl⟩
  | cons a as ih =>
    intro q k q' k' h h0 haf hbig hm hone e
    have hone' : ∀ q1 k1, (∀ pre s, ckRun cf (q1, k1) pre = some s → ckRun cf (q, k) (a :: pre) = some s) →
        ∀ pre post, as = pre ++ .ck :: post → ∀ s, ckRun cf (q1, k1) pre = some s → s.2.phase ≠ 0 := by
      intro q1 k1 hr pre post hp s hs
      exact hone (a :: pre) post (by rw [hp]; rfl) s (hr pre s hs)
    cases a with
    | ck =>
      have hp0 : k.phase ≠ 0 := hone [] as rfl (q, k) rfl
      have h1 := ckInv_step h hcf.1 hp0 hbig
      refine ih q (ckStep cf q k) q' k' h1 ?_ haf hbig (fun a ha => hm a (List.mem_cons_of_mem _ ha))
        (hone' _ _ (fun pre s hs => hs)) e
      intro hz
      have h3 := h.paf
      revert hz
      unfold ckStep
      split
      · intro hz; cases hz
      · split <;> intro hz <;> simp only at hz <;> omega
      · split <;> intro hz <;> simp only at hz <;> omega
      · split
        · intro hz; simp only at hz; exact absurd hz hp0
        · intro _; simp only; omega
    | act a =>
      have ha : a.adds = true := hm (.act a) (List.mem_cons_self ..)
      rw [step_ck_adds ha] at e
      simp only [Option.bind_eq_some_iff] at e
      obtain ⟨q1, e1, e2⟩ := e
      have hf := adds_frame ha e1
      obtain ⟨r1, r2, r3⟩ := ih q1 k q' k' (ckInv_adds hcf ha e1 h) h0 (by omega) (by omega)
        (fun a ha => hm a (List.mem_cons_of_mem _ ha))
        (hone' _ _ (fun pre s hs => by rw [step_ck_adds ha, e1]; exact hs)) e2
      exact ⟨r1, r2, by rw [r3, hf.1]⟩

end

/-! ### Order -/

theorem ordRun_prefix : ∀ (as : List OrdAct) (s s' : Ord), ordRun s as = some s' →
    ∃ l, s'.queued = s.queued ++ l := by
  intro as
  induction as with
  | nil => intro s s' e; injection e with e; subst e; exact ⟨[], by simp⟩
  | cons a as ih =>
    intro s s' e
    simp only [ordRun, Option.bind_eq_some_iff] at e
    obtain ⟨s1, e1, e2⟩ := e
    obtain ⟨l, hl⟩ := ih s1 s' e2
    cases a with
    | commit i =>
      simp only [ordStep] at e1
      split at e1
      · cases e1
      · injection e1 with e1; subst e1; exact ⟨l, hl⟩
    | enqueue i =>
      simp only [ordStep] at e1
      split at e1
      · injection e1 with e1; subst e1; exact ⟨[i] ++ l, by rw [hl]; simp⟩
      · cases e1

theorem ordRun_sub : ∀ (as : List OrdAct) (s s' : Ord), (∀ i ∈ s.queued, i ∈ s.committed) →
    ordRun s as = some s' → ∀ i ∈ s'.queued, i ∈ s'.committed := by
  intro as
  induction as with
  | nil => intro s s' h e; injection e with e; subst e; exact h
  | cons a as ih =>
    intro s s' h e
    simp only [ordRun, Option.bind_eq_some_iff] at e
    obtain ⟨s1, e1, e2⟩ := e
    refine ih s1 s' ?_ e2
    cases a with
    | commit i =>
      simp only [ordStep] at e1
      split at e1
      · cases e1
      · injection e1 with e1; subst e1
        intro j hj; exact List.mem_append_left _ (h j hj)
    | enqueue i =>
      simp only [ordStep] at e1
      split at e1
      · rename_i hc
        injection e1 with e1; subst e1
        intro j hj
        rcases List.mem_append.1 hj with hj | hj
        · exact h j hj
        · rw [List.mem_singleton.1 hj]; exact hc.1
      · cases e1

/-! ### Undo -/

/-- The filling is in the order of the queue: an entry is filled when all before it are. -/
def fillsInOrder (s : Ret) : RetAct → Bool
  | .fill i => (s.queue.takeWhile (fun e => e.id ≠ i)).all (fun e => e.retain.isSome)
  | _ => true

structure RInv (s : Ret) : Prop where
  ml : s.minProc ≤ s.last
  act : ∀ a ∈ s.active, s.minProc ≤ a.2 ∧ a.2 ≤ s.last
  -- unfilled entries still hold their undo
  unf : ∀ e ∈ s.queue, e.retain = none → s.minProc ≤ e.undo ∧ s.active.lookup e.id = some e.undo
  rec_ : ∀ e ∈ s.queue, ∀ v, e.retain = some v → v ≤ s.minProc ∧ v ≤ e.undo
  ids : (s.queue.map REnt.id).Nodup
  -- recorded values grow along the queue, and filled entries come before unfilled ones
  sorted : s.queue.Pairwise (fun a b => ∀ v, b.retain = some v → ∃ u, a.retain = some u ∧ u ≤ v)
  bm : s.bound ≤ s.minProc
  dn : ∀ e ∈ s.queue.drop s.done, ∀ v, e.retain = some v → s.bound ≤ v

theorem foldl_min_le (l : List (Nat × Nat)) : ∀ (x : Nat),
    l.foldl (fun m a => min m a.2) x ≤ x ∧ ∀ a ∈ l, l.foldl (fun m a => min m a.2) x ≤ a.2 := by
  induction l with
  | nil => intro x; simp
  | cons b l ih =>
    intro x
    simp only [List.foldl_cons]
    have h := ih (min x b.2)
    refine ⟨by have := h.1; omega, ?_⟩
    intro a ha
    rcases List.mem_cons.1 ha with rfl | ha
    · have := h.1; omega
    · exact h.2 a ha

theorem foldl_min_ge (l : List (Nat × Nat)) (y : Nat) : ∀ (x : Nat), y ≤ x → (∀ a ∈ l, y ≤ a.2) →
    y ≤ l.foldl (fun m a => min m a.2) x := by
  induction l with
  | nil => intro x h _; exact h
  | cons b l ih =>
    intro x h ha
    simp only [List.foldl_cons]
    have := ha b (List.mem_cons_self ..)
    exact ih _ (by omega) (fun a h => ha a (List.mem_cons_of_mem _ h))

theorem lookup_mem {l : List (Nat × Nat)} {i u : Nat} (h : l.lookup i = some u) : (i, u) ∈ l := by
  induction l with
  | nil => cases h
  | cons b l ih =>
    obtain ⟨j, w⟩ := b
    simp only [List.lookup_cons] at h
    split at h
    · rename_i he
      injection h with h; subst h
      simp only [beq_iff_eq] at he
      subst he; exact List.mem_cons_self ..
    · exact List.mem_cons_of_mem _ (ih h)

theorem lookup_append_ne {l : List (Nat × Nat)} {i j u : Nat} {w : Nat} (h : l.lookup i = some u) :
    (l ++ [(j, w)]).lookup i = some u := by
  rw [List.lookup_append, h]; rfl

theorem lookup_filter_ne {l : List (Nat × Nat)} {i j u : Nat} (hne : i ≠ j) (h : l.lookup i = some u) :
    (l.filter (fun a => a.1 ≠ j)).lookup i = some u := by
  induction l with
  | nil => cases h
  | cons b l ih =>
    obtain ⟨k, w⟩ := b
    simp only [List.lookup_cons] at h
    split at h
    · rename_i he
      simp only [beq_iff_eq] at he
      subst he
      rw [List.filter_cons_of_pos (by simpa using hne), List.lookup_cons]
      simpa using h
    · rename_i he
      by_cases hk : k = j
      · rw [List.filter_cons_of_neg (by simp [hk])]; exact ih h
      · rw [List.filter_cons_of_pos (by simpa using hk), List.lookup_cons, he]; exact ih h

theorem rinv_init : RInv Ret.init := by
  constructor <;> simp [Ret.init]

theorem same_of_id {l : List REnt} (h : (l.map REnt.id).Nodup) {a b : REnt} (ha : a ∈ l) (hb : b ∈ l)
    (he : a.id = b.id) : a = b := by
  induction l with
  | nil => cases ha
  | cons c l ih =>
    simp only [List.map_cons, List.nodup_cons] at h
    rcases List.mem_cons.1 ha with ha' | ha' <;> rcases List.mem_cons.1 hb with hb' | hb'
    · rw [ha', hb']
    · refine absurd ?_ h.1
      rw [← ha', he]; exact List.mem_map_of_mem hb'
    · refine absurd ?_ h.1
      rw [← hb', ← he]; exact List.mem_map_of_mem ha'
    · exact ih h.2 ha' hb'

/-- Entries before the one of transaction `i` are filled: growth is kept. -/
theorem sorted_set {l : List REnt} {i m : Nat} (hn : (l.map REnt.id).Nodup)
    (hs : l.Pairwise (fun a b => ∀ v, b.retain = some v → ∃ u, a.retain = some u ∧ u ≤ v))
    (hf : (l.takeWhile (fun e => e.id ≠ i)).all (fun e => e.retain.isSome) = true)
    (hnone : ∀ e ∈ l, e.id = i → e.retain = none)
    (hle : ∀ e ∈ l, ∀ v, e.retain = some v → v ≤ m) :
    (setRetain l i m).Pairwise (fun a b => ∀ v, b.retain = some v → ∃ u, a.retain = some u ∧ u ≤ v) := by
  induction l with
  | nil => exact List.Pairwise.nil
  | cons c l ih =>
    simp only [List.map_cons, List.nodup_cons] at hn
    rw [List.pairwise_cons] at hs
    simp only [setRetain, List.map_cons, List.pairwise_cons]
    by_cases hc : c.id = i
    · -- the entry is `c`: nothing after it is filled
      have hcn := hnone c (List.mem_cons_self ..) hc
      have hno : ∀ e ∈ l, e.retain = none := by
        intro e he
        cases hr : e.retain with
        | none => rfl
        | some v =>
          obtain ⟨u, hu, _⟩ := hs.1 e he v hr
          rw [hcn] at hu; cases hu
      have hne : ∀ e ∈ l, e.id ≠ i := by
        intro e he h
        exact hn.1 (by rw [hc, ← h]; exact List.mem_map_of_mem he)
      have hmap : l.map (fun e => if e.id = i then { e with retain := some m } else e) = l := by
        conv => rhs; rw [← List.map_id l]
        apply List.map_congr_left
        intro e he
        rw [if_neg (hne e he)]; rfl
      rw [hmap]
      refine ⟨?_, hs.2⟩
      intro b hb v hv
      rw [hno b hb] at hv; cases hv
    · rw [if_neg hc]
      rw [List.takeWhile_cons_of_pos (by simpa using hc), List.all_cons, Bool.and_eq_true] at hf
      refine ⟨?_, ih hn.2 hs.2 hf.2 (fun e he => hnone e (List.mem_cons_of_mem _ he))
        (fun e he => hle e (List.mem_cons_of_mem _ he))⟩
      intro b hb v hv
      obtain ⟨b0, hb0, rfl⟩ := List.mem_map.1 hb
      split at hv
      · injection hv with hv
        obtain ⟨u, hu⟩ := Option.isSome_iff_exists.1 hf.1
        exact ⟨u, hu, by rw [← hv]; exact hle c (List.mem_cons_self ..) u hu⟩
      · exact hs.1 b0 hb0 v hv

theorem rinv_step {s s' : Ret} (h : RInv s) {a : RetAct} (ho : fillsInOrder s a = true)
    (e : retStep s a = some s') : RInv s' := by
  cases a with
  | begin i n =>
    simp only [retStep] at e
    split at e
    · cases e
    · injection e with e; subst e
      have := h.ml
      refine { ml := by simp only; omega, act := ?_, unf := ?_, rec_ := h.rec_, ids := h.ids
               sorted := h.sorted, bm := h.bm, dn := h.dn }
      · intro a ha
        rcases List.mem_append.1 ha with ha | ha
        · have := h.act a ha; simp only; omega
        · rw [List.mem_singleton.1 ha]; simp only; omega
      · intro x hx hr
        have := h.unf x hx hr
        exact ⟨this.1, lookup_append_ne this.2⟩
  | reserve i =>
    simp only [retStep] at e
    split at e
    · cases e
    · rename_i hni
      split at e
      · rename_i u hu
        injection e with e; subst e
        have hact := h.act _ (lookup_mem hu)
        refine { ml := h.ml, act := h.act, unf := ?_, rec_ := ?_, ids := ?_, sorted := ?_, bm := h.bm, dn := ?_ }
        · intro x hx hr
          rcases List.mem_append.1 hx with hx | hx
          · exact h.unf x hx hr
          · rw [List.mem_singleton.1 hx]; exact ⟨hact.1, hu⟩
        · intro x hx v hv
          rcases List.mem_append.1 hx with hx | hx
          · exact h.rec_ x hx v hv
          · rw [List.mem_singleton.1 hx] at hv; cases hv
        · simp only [List.map_append, List.map_cons, List.map_nil]
          rw [List.nodup_append]
          refine ⟨h.ids, by simp, ?_⟩
          intro x hx y hy hxy
          rw [List.mem_singleton.1 hy] at hxy
          exact hni (hxy ▸ hx)
        · rw [List.pairwise_append]
          refine ⟨h.sorted, by simp, ?_⟩
          intro x hx y hy v hv
          rw [List.mem_singleton.1 hy] at hv; cases hv
        · intro x hx v hv
          simp only [List.drop_append] at hx
          rcases List.mem_append.1 hx with hx | hx
          · exact h.dn x hx v hv
          · have := List.mem_of_mem_drop hx
            rw [List.mem_singleton.1 this] at hv; cases hv
      · cases e
  | fill i =>
    simp only [retStep] at e
    split at e
    · rename_i hc
      injection e with e; subst e
      rw [Bool.and_eq_true, List.any_eq_true] at hc
      obtain ⟨⟨x0, hx0, hx1⟩, _⟩ := hc
      simp only [Bool.and_eq_true, decide_eq_true_eq, Option.isNone_iff_eq_none] at hx1
      have hnone : ∀ e ∈ s.queue, e.id = i → e.retain = none := by
        intro y hy hyi
        have : y = x0 := same_of_id h.ids hy hx0 (by rw [hyi, hx1.1])
        rw [this]; exact hx1.2
      have hmem : ∀ y ∈ setRetain s.queue i s.minProc, (∃ y0 ∈ s.queue, y0.id ≠ i ∧ y = y0) ∨
          (∃ y0 ∈ s.queue, y0.id = i ∧ y = { y0 with retain := some s.minProc }) := by
        intro y hy
        obtain ⟨y0, hy0, rfl⟩ := List.mem_map.1 hy
        by_cases hyi : y0.id = i
        · right; exact ⟨y0, hy0, hyi, by rw [if_pos hyi]⟩
        · left; exact ⟨y0, hy0, hyi, by rw [if_neg hyi]⟩
      refine { ml := h.ml, act := h.act, unf := ?_, rec_ := ?_, ids := ?_
               sorted := sorted_set h.ids h.sorted ho hnone (fun e he v hv => (h.rec_ e he v hv).1)
               bm := h.bm, dn := ?_ }
      · intro y hy hr
        rcases hmem y hy with ⟨y0, hy0, hyi, rfl⟩ | ⟨y0, hy0, hyi, rfl⟩
        · exact h.unf y hy0 hr
        · cases hr
      · intro y hy v hv
        rcases hmem y hy with ⟨y0, hy0, hyi, rfl⟩ | ⟨y0, hy0, hyi, rfl⟩
        · exact h.rec_ y hy0 v hv
        · injection hv with hv
          subst hv
          exact ⟨Nat.le_refl _, (h.unf y0 hy0 (hnone y0 hy0 hyi)).1⟩
      · have : (setRetain s.queue i s.minProc).map REnt.id = s.queue.map REnt.id := by
          simp only [setRetain, List.map_map]
          apply List.map_congr_left
          intro x _
          simp only [Function.comp]
          split <;> rfl
        rw [this]; exact h.ids
      · intro y hy v hv
        simp only [setRetain, ← List.map_drop] at hy
        obtain ⟨y0, hy0, rfl⟩ := List.mem_map.1 hy
        split at hv
        · injection hv with hv; rw [← hv]; exact h.bm
        · exact h.dn y0 hy0 v hv
    · cases e
  | finish i =>
    simp only [retStep] at e
    split at e
    · rename_i hc
      injection e with e; subst e
      rw [List.any_eq_true] at hc
      obtain ⟨x0, hx0, hx1⟩ := hc
      simp only [Bool.and_eq_true, decide_eq_true_eq] at hx1
      refine { ml := h.ml, act := fun a ha => h.act a (List.mem_filter.1 ha).1, unf := ?_, rec_ := h.rec_
               ids := h.ids, sorted := h.sorted, bm := h.bm, dn := h.dn }
      intro x hx hr
      have hu := h.unf x hx hr
      refine ⟨hu.1, lookup_filter_ne ?_ hu.2⟩
      intro he
      have : x = x0 := same_of_id h.ids hx hx0 (by rw [he, hx1.1])
      rw [← this, hr] at hx1
      cases hx1.2
    · cases e
  | update =>
    simp only [retStep] at e
    injection e with e; subst e
    have hf := foldl_min_le s.active s.last
    have := h.ml
    have hact : ∀ a ∈ s.active, max s.minProc (s.active.foldl (fun m a => min m a.2) s.last) ≤ a.2 ∧ a.2 ≤ s.last := by
      intro a ha
      have := hf.2 a ha
      have := h.act a ha
      omega
    refine { ml := by simp only; omega, act := hact, unf := ?_, rec_ := ?_, ids := h.ids, sorted := h.sorted
             bm := by have := h.bm; simp only; omega, dn := h.dn }
    · intro x hx hr
      have hu := h.unf x hx hr
      exact ⟨(hact _ (lookup_mem hu.2)).1, hu.2⟩
    · intro x hx v hv
      have := h.rec_ x hx v hv
      simp only; omega
  | complete =>
    simp only [retStep] at e
    split at e
    · rename_i x hx
      split at e
      · rename_i v hv
        injection e with e; subst e
        obtain ⟨hlt, hx'⟩ := List.getElem?_eq_some_iff.1 hx
        have hmem : x ∈ s.queue := by rw [← hx']; exact List.getElem_mem hlt
        refine { ml := h.ml, act := h.act, unf := h.unf, rec_ := h.rec_, ids := h.ids, sorted := h.sorted
                 bm := (h.rec_ x hmem v hv).1, dn := ?_ }
        intro y hy w hw
        have hd : s.queue.drop s.done = x :: s.queue.drop (s.done + 1) := by
          rw [List.drop_eq_getElem_cons hlt, hx']
        have hp : (s.queue.drop s.done).Pairwise _ := h.sorted.sublist (List.drop_sublist _ _)
        rw [hd, List.pairwise_cons] at hp
        obtain ⟨u, hu, hle⟩ := hp.1 y hy w hw
        rw [hv] at hu
        injection hu with hu
        simp only; omega
      · cases e
    · cases e

/-- All fillings of a run are in the order of the queue. -/
def runInOrder : Ret → List RetAct → Prop
  | _, [] => True
  | s, a :: as => fillsInOrder s a = true ∧ ∀ s', retStep s a = some s' → runInOrder s' as

theorem rinv_run : ∀ (as : List RetAct) (s s' : Ret), RInv s → runInOrder s as →
    retRun s as = some s' → RInv s' := by
  intro as
  induction as with
  | nil => intro s s' h _ e; injection e with e; subst e; exact h
  | cons a as ih =>
    intro s s' h ho e
    simp only [retRun, Option.bind_eq_some_iff] at e
    obtain ⟨s1, e1, e2⟩ := e
    exact ih s1 s' (rinv_step h ho.1 e1) (ho.2 s1 e1) e2

/-! ### Stopping the worker -/

theorem hs_stuck : ∀ (as : List HsAct) (s s' : Hs), (s.pc = .restore1 ∨ s.pc = .restore2) →
    s.locked = true → s.ack = false → hsRun s as = some s' →
    (s'.pc = .restore1 ∨ s'.pc = .restore2) ∧ s'.locked = true ∧ s'.ack = false := by
  intro as
  induction as with
  | nil => intro s s' h1 h2 h3 e; injection e with e; subst e; exact ⟨h1, h2, h3⟩
  | cons a as ih =>
    intro s s' h1 h2 h3 e
    simp only [hsRun, Option.bind_eq_some_iff] at e
    obtain ⟨s1, e1, e2⟩ := e
    cases a with
    | worker b =>
      rcases h1 with h1 | h1 <;> simp [hsStep, h1, h2] at e1
    | commit =>
      simp only [hsStep, Option.some.injEq] at e1; subst e1
      refine ih _ s' ?_ ?_ ?_ e2 <;> first | assumption | rfl
    | lock => simp [hsStep, h2] at e1
    | ask =>
      simp only [hsStep, h2, if_true, Option.some.injEq] at e1; subst e1
      refine ih _ s' ?_ ?_ ?_ e2 <;> first | assumption | rfl

/-- An action other than a commit. -/
def HsAct.quiet : HsAct → Bool
  | .commit => false
  | _ => true

theorem hs_empty : ∀ (as : List HsAct) (s s' : Hs), s.n = 0 → (s.pc = .sleep ∨ s.pc = .head) →
    s.ack = false → (∀ a ∈ as, a.quiet = true) → hsRun s as = some s' → s'.ack = false := by
  intro as
  induction as with
  | nil => intro s s' _ _ h3 _ e; injection e with e; subst e; exact h3
  | cons a as ih =>
    intro s s' h1 h2 h3 hq e
    simp only [hsRun, Option.bind_eq_some_iff] at e
    obtain ⟨s1, e1, e2⟩ := e
    have hq' : ∀ a ∈ as, a.quiet = true := fun a ha => hq a (List.mem_cons_of_mem _ ha)
    cases a with
    | worker b =>
      rcases h2 with h2 | h2
      · simp only [hsStep, h2, Option.some.injEq] at e1; subst e1
        refine ih _ s' ?_ (Or.inr ?_) ?_ hq' e2 <;> first | assumption | rfl
      · simp only [hsStep, h2, h1, if_true, Option.some.injEq] at e1; subst e1
        refine ih _ s' ?_ (Or.inl ?_) ?_ hq' e2 <;> first | assumption | rfl
    | commit => exact absurd (hq .commit (List.mem_cons_self ..)) (by simp [HsAct.quiet])
    | lock =>
      simp only [hsStep] at e1
      split at e1
      · cases e1
      · injection e1 with e1; subst e1; refine ih _ s' ?_ ?_ ?_ hq' e2 <;> assumption
    | ask =>
      simp only [hsStep] at e1
      split at e1
      · injection e1 with e1; subst e1; refine ih _ s' ?_ ?_ ?_ hq' e2 <;> assumption
      · cases e1

end Verif.Rewind
