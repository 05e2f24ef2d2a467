import Verif.PageSplit.LevelStep

/-! # Undoing finds its room in calm runs -/

namespace Verif.PageSplit

/-- Above an unfinished change there are only headers of the same transaction, and the item has
room for the tuples the unfinished transaction has replaced. -/
structure Calm (com : Env) (it : Item) : Prop where
  above : it.row.chain.Pairwise (fun c r => r.isLock = false → com.fin r.xid = false → c.xid = r.xid)
  room : ∀ r ∈ it.row.chain, com.fin r.xid = false → ∀ t d, r.act = .upd t d → need true t ≤ it.size

def CInv (s : Lev) : Prop := ∀ it ∈ itemsOf s.pages, Calm s.com it

/-- No transaction locks a row whose last change is by another and not finished. -/
def calmOp (s : Lev) : Op → Bool
  | .lock x k => (s.find k).all (fun it => canChange s.com x it.row)
  | _ => true

/-- A run without such locks. -/
def calmRun (bridge : Bool) : List Op → Lev → Bool
  | [], _ => true
  | op :: ops, s => calmOp s op &&
    match s.step bridge op with
    | .ok s' => calmRun bridge ops s'
    | _ => true

theorem Carried.calm {com : Env} {x y : Item} (h : Carried com x y) (hx : Calm com x) : Calm com y := by
  rcases h with rfl | ⟨hf, rfl⟩
  · exact hx
  · refine ⟨hx.above, ?_⟩
    intro r hr hu t d e
    exfalso
    have ha := hx.above
    unfold Row.xid at hf
    change r ∈ x.row.chain at hr
    cases hc : x.row.chain with
    | nil => rw [hc] at hr; cases hr
    | cons c l =>
      rw [hc] at hr hf ha
      dsimp only at hf
      rcases List.mem_cons.1 hr with rfl | hr
      · rw [hf] at hu; cases hu
      · have := (List.pairwise_cons.1 ha).1 r hr (by unfold Rec.isLock; rw [e]; rfl) hu
        rw [this, hu] at hf; cases hf

/-- The unfinished changes of a row that `x` may change are its own. -/
theorem canChange_own {com : Env} {x : Nat} {it : Item} (h : canChange com x it.row = true)
    (ha : Calm com it) : ∀ r ∈ it.row.chain, r.isLock = false → com.fin r.xid = false → x = r.xid := by
  intro r hr hl hu
  unfold canChange at h
  have hsplit : it.row.chain = it.row.chain.takeWhile Rec.isLock ++
      it.row.chain.dropWhile Rec.isLock := List.takeWhile_append_dropWhile.symm
  have hp := ha.above
  have hlocks : ∀ c ∈ it.row.chain.takeWhile Rec.isLock, c.isLock = true := fun c hc => by
    have := List.all_takeWhile (p := Rec.isLock) (l := it.row.chain)
    exact List.all_eq_true.1 this c hc
  generalize it.row.chain.takeWhile Rec.isLock = locks at *
  generalize it.row.chain.dropWhile Rec.isLock = rest at *
  rw [hsplit] at hr hp
  rcases List.mem_append.1 hr with hr | hr
  · rw [hlocks r hr] at hl; cases hl
  · cases rest with
    | nil => cases hr
    | cons c l =>
      simp only [Bool.or_eq_true, beq_iff_eq] at h
      rcases List.mem_cons.1 hr with rfl | hr
      · rcases h with h | h
        · exact h.symm
        · rw [h] at hu; cases hu
      · have := (List.pairwise_cons.1 (List.pairwise_append.1 hp).2.1).1 r hr hl hu
        rcases h with h | h
        · rw [← h, this]
        · rw [this, hu] at h; cases h

/-- A header of `x` on top. -/
theorem Calm.push {com : Env} {x : Nat} {it n : Item} {a : Act} (h : canChange com x it.row = true)
    (hc : Calm com it) (hn : n.row.chain = ⟨x, a⟩ :: it.row.chain) (hs : it.size ≤ n.size)
    (ha : ∀ t d, a = .upd t d → need true t ≤ n.size) : Calm com n := by
  constructor
  · rw [hn]
    exact List.pairwise_cons.2 ⟨fun r hr hl hu => canChange_own h hc r hr hl hu, hc.above⟩
  · rw [hn]
    intro r hr hu t d e
    rcases List.mem_cons.1 hr with rfl | hr
    · exact ha t d e
    · exact Nat.le_trans (hc.room r hr hu t d e) hs

theorem Calm.sub {com : Env} {it n : Item} (hc : Calm com it)
    (hs : n.row.chain.Sublist it.row.chain) (hz : n.size = it.size) : Calm com n :=
  ⟨hc.above.sublist hs, fun r hr => by rw [hz]; exact hc.room r (hs.subset hr)⟩

theorem Calm.fresh {com : Env} {n : Item} {x : Nat} (h : n.row.chain = [⟨x, .ins⟩]) : Calm com n := by
  constructor
  · rw [h]; exact List.pairwise_singleton _ _
  · rw [h]
    intro r hr _ t d e
    rw [List.mem_singleton.1 hr] at e
    cases e

theorem Calm.undo {bridge : Bool} {com : Env} {x : Nat} {it : Item}
    (hc : Calm com it) : ∃ r, undoItem bridge com x it = some r ∧ ∀ y, r = some y → Calm com y := by
  unfold undoItem
  have hsplit : it.row.chain = it.row.chain.takeWhile Rec.isLock ++
      it.row.chain.dropWhile Rec.isLock := List.takeWhile_append_dropWhile.symm
  have hlocks : ∀ c ∈ it.row.chain.takeWhile Rec.isLock, c.isLock = true := fun c hc => by
    have := List.all_takeWhile (p := Rec.isLock) (l := it.row.chain)
    exact List.all_eq_true.1 this c hc
  cases hd : it.row.chain.dropWhile Rec.isLock with
  | nil => exact ⟨_, rfl, fun y hy => by cases hy; exact hc⟩
  | cons r rest =>
    rw [hd] at hsplit
    dsimp only
    generalize it.row.chain.takeWhile Rec.isLock = locks at *
    have hsub : (locks ++ rest).Sublist it.row.chain := by
      rw [hsplit]
      exact (List.Sublist.refl _).append (List.sublist_cons_self _ _)
    by_cases hx : r.xid = x ∧ com.fin x = false
    · rw [if_pos hx]
      cases ha : r.act with
      | ins =>
        refine ⟨_, rfl, ?_⟩
        intro y hy
        cases bridge with
        | false => cases hy
        | true => cases hy; exact hc.sub (List.Sublist.refl _) rfl
      | del => exact ⟨_, rfl, fun y hy => by cases hy; exact hc.sub hsub rfl⟩
      | lock => exact ⟨_, rfl, fun y hy => by cases hy; exact hc⟩
      | upd old d =>
        dsimp only
        have hr := hc.room r (by rw [hsplit]; simp) (by rw [hx.1]; exact hx.2) old d ha
        rw [if_neg (by omega)]
        refine ⟨_, rfl, ?_⟩
        intro y hy
        cases hy
        cases hb : finBefore com rest with
        | false => exact hc.sub hsub rfl
        | true =>
          refine ⟨hc.above.sublist hsub, ?_⟩
          intro c hcm hu t d' e
          exfalso
          have hl : c.isLock = false := by unfold Rec.isLock; rw [e]; rfl
          rcases List.mem_append.1 hcm with h | h
          · rw [hlocks c h] at hl; cases hl
          · have hp := hc.above
            rw [hsplit] at hp
            have hp2 := (List.pairwise_cons.1 (List.pairwise_append.1 hp).2.1).2
            cases rest with
            | nil => cases h
            | cons b rest =>
              have hb : com.fin b.xid = true := hb
              rcases List.mem_cons.1 h with rfl | h
              · rw [hb] at hu; cases hu
              · have := (List.pairwise_cons.1 hp2).1 c h hl hu
                rw [this, hu] at hb; cases hb
    · rw [if_neg hx]
      exact ⟨_, rfl, fun y hy => by cases hy; exact hc⟩

theorem PutEff.calm {com : Env} {a b os ns : List Item} (h : PutEff com a b os ns)
    (ha : ∀ x ∈ a, Calm com x) (hn : ∀ x ∈ ns, Calm com x) : ∀ x ∈ b, Calm com x := by
  obtain ⟨a', b', hh, h1, h2⟩ := h.hold
  intro y hy
  rcases (h2 y).1 hy with hy | hy
  · obtain ⟨x, hx, hc⟩ := hh.from_ y hy
    exact hc.calm (ha x ((h1 x).2 (.inl hx)))
  · exact hn y hy

theorem CInv.change {s : Lev} (hc : CInv s) {k : Nat} {f : Item → Option Item}
    (hf : ∀ x ∈ itemsOf s.pages, x.row.tup.key = k → ∀ y, f x = some y → Calm s.com y) :
    CInv (s.change k f) := by
  intro y hy
  obtain ⟨x, hx, e⟩ := mem_change.1 hy
  unfold atKey at e
  split at e
  · rename_i hk
    exact hf x hx hk y e
  · cases e
    exact hc _ hx

/-- In a calm run no operation fails. -/
theorem CInv.step (bridge : Bool) {kl : Nat → Nat} {s : Lev} (hi : LInv kl s) (hc : CInv s) {op : Op}
    (ho : OpOk kl op) (hq : calmOp s op = true) :
    ∃ s', s.step bridge op = .ok s' ∧ CInv s' := by
  cases op with
  | put o x t l1 l2 csn =>
    simp only [Lev.step]
    cases hx : s.com.fin x with
    | true => exact ⟨s, rfl, hc⟩
    | false =>
      simp only [Bool.false_eq_true, if_false]
      rcases stepPut_ok bridge hi o x ho l1 l2 csn with ⟨h, _⟩ | ⟨ps, old, n, h, h', h1, h2, h3, h4⟩
      · exact ⟨s, h, hc⟩
      · refine ⟨_, h, h4.calm hc ?_⟩
        intro y hy
        rw [List.mem_singleton.1 hy]
        cases hd : old with
        | none =>
          rw [hd] at h3
          exact Calm.fresh (x := x) (by rw [h3]; rfl)
        | some it =>
          obtain ⟨g1, g2⟩ := h2 it hd
          obtain ⟨g3, _⟩ := (h1 it).1 hd
          rw [hd] at h3
          refine Calm.push g1 (hc it g3) (by rw [h3]; rfl) g2 ?_
          intro t' d e
          cases e
          exact Nat.le_trans ((hi.items it g3).need rfl) g2
  | putAll o half x t ws l2 csn =>
    simp only [Lev.step]
    cases hx : s.com.fin x with
    | true => exact ⟨s, rfl, hc⟩
    | false =>
      simp only [Bool.false_eq_true, if_false]
      rcases stepPutAll_ok hi o half x ho.1 ho.2 l2 csn with h | ⟨ps, ns, ys, rej, h, h', h1, h2, h3, h4⟩
      · refine ⟨s, ?_, hc⟩
        unfold stepPutAll
        rw [h]
      · refine ⟨_, h, h4.calm hc ?_⟩
        intro y hy
        rcases (h3 y.row).1 (List.mem_map.2 ⟨y, hy, rfl⟩) with e | e
        · exact Calm.fresh (x := x) (by rw [e]; rfl)
        · obtain ⟨z, hz, e⟩ := List.mem_map.1 e
          obtain ⟨w, _, e'⟩ := List.mem_map.1 (h2.mem_iff.1 (List.mem_append_left _ hz))
          exact Calm.fresh (x := w.2.1) (by rw [← e, ← e']; rfl)
  | del x k =>
    simp only [Lev.step]
    cases hx : s.com.fin x with
    | true => exact ⟨s, rfl, hc⟩
    | false =>
      simp only [Bool.false_or]
      cases hf : s.find k with
      | none => exact ⟨s, rfl, hc⟩
      | some it =>
        simp only [Option.any_some]
        by_cases hd : (!it.row.deleted && canDelete s.com x it.row) = true
        · refine ⟨_, if_neg (by rw [hd]; decide), hc.change ?_⟩
          intro z hz hk y hy
          obtain ⟨h1, h2⟩ := (find_spec hi k it).1 hf
          have : z = it := sorted_inj hi.ranged.sorted.1 hz h1 (by rw [hk, h2])
          subst this
          cases hy
          rw [Bool.and_eq_true] at hd
          have hcd := hd.2
          unfold canDelete at hcd
          rw [Bool.and_eq_true] at hcd
          exact Calm.push hcd.1 (hc z hz) rfl (Nat.le_refl _) (fun t d e => (by cases e))
        · exact ⟨s, if_pos (by rw [Bool.eq_false_iff.2 hd]; rfl), hc⟩
  | lock x k =>
    simp only [Lev.step]
    unfold calmOp at hq
    dsimp only at hq
    cases hx : s.com.fin x with
    | true => exact ⟨s, rfl, hc⟩
    | false =>
      simp only [Bool.false_or]
      cases hf : s.find k with
      | none => exact ⟨s, rfl, hc⟩
      | some it =>
        rw [hf] at hq
        simp only [Option.any_some]
        by_cases hd : canLock s.com x it.row = true
        · refine ⟨_, if_neg (by rw [hd]; decide), hc.change ?_⟩
          intro z hz hk y hy
          obtain ⟨h1, h2⟩ := (find_spec hi k it).1 hf
          have : z = it := sorted_inj hi.ranged.sorted.1 hz h1 (by rw [hk, h2])
          subst this
          cases hy
          exact Calm.push (by simpa using hq) (hc z hz) rfl (Nat.le_refl _) (fun t d e => (by cases e))
        · exact ⟨s, if_pos (by rw [Bool.eq_false_iff.2 hd]; rfl), hc⟩
  | unlock x k =>
    refine ⟨_, rfl, hc.change ?_⟩
    intro z hz hk y hy
    cases hy
    exact (hc z hz).sub List.erase_sublist rfl
  | undo x k =>
    simp only [Lev.step]
    cases hf : s.find k with
    | none => exact ⟨s, rfl, hc⟩
    | some it =>
      obtain ⟨h1, h2⟩ := (find_spec hi k it).1 hf
      obtain ⟨r, hr, hr'⟩ := Calm.undo (bridge := bridge) (x := x) (hc it h1)
      dsimp only
      rw [hr]
      exact ⟨_, rfl, hc.change (fun z hz hk y hy => hr' y hy)⟩
  | finish x =>
    simp only [Lev.step]
    cases hx : s.com.fin x with
    | true => exact ⟨s, rfl, hc⟩
    | false =>
      refine ⟨_, rfl, ?_⟩
      intro it hit
      have h := hc it hit
      have hmono : ∀ y, Env.fin (fun y => if y = x then some s.next else s.com y) y = false →
          s.com.fin y = false := by
        intro y hy
        unfold Env.fin at hy ⊢
        simp only [Bool.or_eq_false_iff] at hy ⊢
        refine ⟨hy.1, ?_⟩
        have h2 := hy.2
        by_cases e : y = x
        · rw [if_pos e] at h2; cases h2
        · rw [if_neg e] at h2; exact h2
      exact ⟨h.above.imp (fun hh hl hu => hh hl (hmono _ hu)),
        fun r hr hu => h.room r hr (hmono _ hu)⟩
  | merge o vacR i l1 l2 csn =>
    simp only [Lev.step]
    cases hl : s.pages[i]? with
    | none => exact ⟨s, rfl, hc⟩
    | some l =>
      cases hr : s.pages[i + 1]? with
      | none => exact ⟨s, rfl, hc⟩
      | some r =>
        obtain ⟨qs, h1, h2, h3⟩ := stepMerge_ok hi o vacR l1 l2 csn hl hr
        dsimp only
        rw [h1]
        refine ⟨_, rfl, ?_⟩
        intro y hy
        obtain ⟨x, hx, e⟩ := h3.from_ y hy
        exact e.calm (hc x hx)

theorem CInv.init : CInv Lev.init := fun x hx => (by cases hx)

/-- Runs never fail for space; calm runs never fail. -/
theorem LInv.run (bridge : Bool) {kl : Nat → Nat} {ops : List Op} {s : Lev} (hi : LInv kl s)
    (ho : ∀ op ∈ ops, OpOk kl op) :
    (∃ s', Lev.run bridge ops s = .ok s' ∧ LInv kl s') ∨ Lev.run bridge ops s = .over := by
  induction ops generalizing s with
  | nil => exact .inl ⟨s, rfl, hi⟩
  | cons op ops ih =>
    unfold Lev.run
    rcases hi.step bridge (ho op List.mem_cons_self) with ⟨s', h, hi', _⟩ | ⟨h, _⟩
    · rw [h]
      exact ih hi' (fun o h => ho o (List.mem_cons_of_mem _ h))
    · rw [h]; exact .inr rfl

theorem CInv.run (bridge : Bool) {kl : Nat → Nat} {ops : List Op} {s : Lev} (hi : LInv kl s)
    (hc : CInv s) (ho : ∀ op ∈ ops, OpOk kl op) (hq : calmRun bridge ops s = true) :
    ∃ s', Lev.run bridge ops s = .ok s' ∧ LInv kl s' ∧ CInv s' := by
  induction ops generalizing s with
  | nil => exact ⟨s, rfl, hi, hc⟩
  | cons op ops ih =>
    unfold calmRun at hq
    rw [Bool.and_eq_true] at hq
    obtain ⟨s', h, hc'⟩ := hc.step bridge hi (ho op List.mem_cons_self) hq.1
    have hi' : LInv kl s' := by
      rcases hi.step bridge (ho op List.mem_cons_self) with ⟨s2, h2, hi2, _⟩ | ⟨h2, _⟩
      · rw [h] at h2; cases h2; exact hi2
      · rw [h] at h2; cases h2
    have h2 := hq.2
    rw [h] at h2
    unfold Lev.run
    rw [h]
    exact ih hi' hc' (fun o h => ho o (List.mem_cons_of_mem _ h)) h2

end Verif.PageSplit
