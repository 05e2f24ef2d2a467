import Verif.PageSplit.LevelInv
import Verif.PageSplit.LevelSpec

/-! # Every operation on the leaf level does what it should -/

namespace Verif.PageSplit

/-- The tuples of an operation are as they should be. -/
def OpOk (kl : Nat → Nat) : Op → Prop
  | .put _ _ t _ _ _ => TupOk kl t
  | .putAll _ _ _ t ws _ _ => TupOk kl t ∧ ∀ w ∈ ws, TupOk kl w.2.2
  | _ => True

/-! ## Chains -/

theorem popChange_eq (l : List Rec) : popChange l = match l.dropWhile Rec.isLock with
    | [] => none
    | c :: r => some (c, l.takeWhile Rec.isLock ++ r) := by
  induction l with
  | nil => rfl
  | cons c l ih =>
    unfold popChange
    rw [List.dropWhile_cons, List.takeWhile_cons]
    by_cases h : c.act = .lock
    · have hl : c.isLock = true := by unfold Rec.isLock; rw [h]; rfl
      rw [if_pos h, if_pos hl, if_pos hl, ih]
      cases l.dropWhile Rec.isLock <;> rfl
    · have hl : ¬ c.isLock = true := by unfold Rec.isLock; simpa using h
      rw [if_neg h, if_neg hl, if_neg hl]
      rfl

theorem canChange_iff (com : Env) (x : Nat) (r : Row) :
    canChange com x r = true ↔ changeable com x r := by
  unfold canChange changeable
  rw [popChange_eq]
  cases h : r.chain.dropWhile Rec.isLock with
  | nil => simp
  | cons c l =>
    simp only [Bool.or_eq_true, beq_iff_eq, Option.some.injEq, Prod.mk.injEq]
    constructor
    · rintro hh d m ⟨rfl, _⟩; exact hh
    · intro hh; exact hh c _ ⟨rfl, rfl⟩

theorem canLock_iff (com : Env) (x : Nat) (r : Row) : canLock com x r = true ↔
    r.deleted = false ∧ (changeable com x r ∨ updated r = true) := by
  unfold canLock
  rw [Bool.and_eq_true, Bool.not_eq_true', ← canChange_iff]
  refine and_congr Iff.rfl ?_
  unfold canChange updated
  rw [popChange_eq]
  cases h : r.chain.dropWhile Rec.isLock with
  | nil => simp
  | cons c l =>
    obtain ⟨y, a⟩ := c
    cases a <;> simp

theorem canDelete_iff (com : Env) (x : Nat) (r : Row) : canDelete com x r = true ↔
    changeable com x r ∧ (∀ c ∈ r.chain, c.act = .lock → c.xid = x ∨ com.fin c.xid = true) := by
  unfold canDelete
  rw [Bool.and_eq_true, canChange_iff, List.all_eq_true]
  refine and_congr Iff.rfl ?_
  refine forall_congr' (fun c => forall_congr' (fun _ => ?_))
  unfold Rec.isLock
  by_cases h : c.act = .lock
  · simp [h]
  · simp [h]

/-! ## Rows -/

theorem mem_rows {s : Lev} {r : Row} : r ∈ s.rows ↔ ∃ x ∈ itemsOf s.pages, x.row = r := List.mem_map

theorem rowOf_spec {kl : Nat → Nat} {s : Lev} (_hi : LInv kl s) (k : Nat) :
    rowOf s.rows k = (s.find k).map (·.row) := by
  unfold rowOf Lev.rows Lev.find
  rw [List.find?_map]
  rfl

theorem rowOf_some {kl : Nat → Nat} {s : Lev} (hi : LInv kl s) {x : Item}
    (hx : x ∈ itemsOf s.pages) : rowOf s.rows x.row.tup.key = some x.row := by
  rw [rowOf_spec hi, (find_spec hi _ x).2 ⟨hx, rfl⟩]
  rfl

theorem rowOf_none {kl : Nat → Nat} {s : Lev} (hi : LInv kl s) {k : Nat}
    (h : ∀ x ∈ itemsOf s.pages, x.row.tup.key ≠ k) : rowOf s.rows k = none := by
  rw [rowOf_spec hi]
  cases hf : s.find k with
  | none => rfl
  | some x =>
    obtain ⟨h1, h2⟩ := (find_spec hi _ x).1 hf
    exact (h x h1 h2).elim

theorem PutEff.others {kl : Nat → Nat} {s s' : Lev} {ks : Nat → Prop} {os ns : List Item} (_hs : LInv kl s)
    (h : PutEff s.com (itemsOf s.pages) (itemsOf s'.pages) os ns)
    (ho : ∀ x ∈ os, ks x.row.tup.key) (new : List Row)
    (hn : ∀ x ∈ ns, ks x.row.tup.key ∨ x.row ∈ new) : Others s.com ks new s.rows s'.rows := by
  obtain ⟨a', b', hh, ha, hb⟩ := h.hold
  constructor
  · intro r hr hk
    obtain ⟨x, hx, rfl⟩ := mem_rows.1 hr
    rcases (ha x).1 hx with hx | hx
    · rcases hh.to_ x hx with ⟨y, hy, hc⟩ | h
      · exact .inl (mem_rows.2 ⟨y, (hb y).2 (.inl hy), hc.row⟩)
      · exact .inr h
    · exact (hk (ho x hx)).elim
  · intro r hr hk
    obtain ⟨y, hy, rfl⟩ := mem_rows.1 hr
    rcases (hb y).1 hy with hy | hy
    · obtain ⟨x, hx, hc⟩ := hh.from_ y hy
      exact .inl (mem_rows.2 ⟨x, (ha x).2 (.inl hx), hc.row.symm⟩)
    · rcases hn y hy with h | h
      · exact (hk h).elim
      · exact .inr h

theorem Hold.others {s s' : Lev} (h : Hold s.com (itemsOf s.pages) (itemsOf s'.pages)) :
    Others s.com (fun _ => False) [] s.rows s'.rows := by
  constructor
  · intro r hr _
    obtain ⟨x, hx, rfl⟩ := mem_rows.1 hr
    rcases h.to_ x hx with ⟨y, hy, hc⟩ | h
    · exact .inl (mem_rows.2 ⟨y, hy, hc.row⟩)
    · exact .inr h
  · intro r hr _
    obtain ⟨y, hy, rfl⟩ := mem_rows.1 hr
    obtain ⟨x, hx, hc⟩ := h.from_ y hy
    exact .inl (mem_rows.2 ⟨x, hx, hc.row.symm⟩)

theorem mem_change {s : Lev} {k : Nat} {f : Item → Option Item} {y : Item} :
    y ∈ itemsOf (s.change k f).pages ↔ ∃ x ∈ itemsOf s.pages, atKey k f x = some y := by
  change y ∈ itemsOf (s.pages.map (Page.change k f)) ↔ _
  rw [itemsOf_change]
  exact List.mem_filterMap

/-- The change of a row in place. -/
theorem change_single {kl : Nat → Nat} {s : Lev} (hi : LInv kl s) {k : Nat} {f : Item → Option Item}
    (hi' : LInv kl (s.change k f))
    (hf : ∀ x ∈ itemsOf s.pages, x.row.tup.key = k → ∀ y, f x = some y → y.row.tup.key = k)
    {it : Item} (hit : s.find k = some it) :
    Single s.com k s.rows (s.change k f).rows (some ((f it).map (·.row))) := by
  obtain ⟨h1, h2⟩ := (find_spec hi k it).1 hit
  have huniq : ∀ x ∈ itemsOf s.pages, x.row.tup.key = k → x = it := fun x hx hk =>
    sorted_inj hi.ranged.sorted.1 hx h1 (by rw [hk, h2])
  refine ⟨?_, ?_, ?_⟩
  · cases hfi : f it with
    | none =>
      refine rowOf_none hi' ?_
      intro y hy hk
      obtain ⟨x, hx, e⟩ := mem_change.1 hy
      unfold atKey at e
      split at e
      · rename_i hxk
        rw [huniq x hx hxk, hfi] at e
        cases e
      · rename_i hxk
        cases e
        exact hxk hk
    | some y =>
      have hy : y ∈ itemsOf (s.change k f).pages :=
        mem_change.2 ⟨it, h1, by unfold atKey; rw [if_pos h2]; exact hfi⟩
      have := rowOf_some hi' hy
      rw [hf it h1 h2 y hfi] at this
      exact this
  · intro r hr hk
    obtain ⟨x, hx, rfl⟩ := mem_rows.1 hr
    exact .inl (mem_rows.2 ⟨x, mem_change.2 ⟨x, hx, by unfold atKey; rw [if_neg hk]⟩, rfl⟩)
  · intro r hr hk
    obtain ⟨y, hy, rfl⟩ := mem_rows.1 hr
    obtain ⟨x, hx, e⟩ := mem_change.1 hy
    unfold atKey at e
    split at e
    · rename_i hxk
      exact (hk (hf x hx hxk y e)).elim
    · cases e
      exact .inl (mem_rows.2 ⟨_, hx, rfl⟩)

/-- Nothing is changed where there is no row. -/
theorem change_absent {kl : Nat → Nat} {s : Lev} (hi : LInv kl s) {k : Nat} {f : Item → Option Item}
    (h : s.find k = none) : (s.change k f).rows = s.rows := by
  unfold Lev.rows
  change (itemsOf (s.pages.map (Page.change k f))).map _ = _
  rw [itemsOf_change]
  have : ∀ l : List Item, (∀ x ∈ l, x.row.tup.key ≠ k) → l.filterMap (atKey k f) = l := by
    intro l hl
    induction l with
    | nil => rfl
    | cons x l ih =>
      rw [List.filterMap_cons]
      have : atKey k f x = some x := by
        unfold atKey; rw [if_neg (hl x List.mem_cons_self)]
      rw [this, ih (fun z hz => hl z (List.mem_cons_of_mem _ hz))]
  rw [this]
  intro x hx hk
  rw [(find_spec hi k x).2 ⟨hx, hk⟩] at h
  cases h

/-! ## In-place operations -/

theorem Gentle.row {l : List Item} {k : Nat} {f : Item → Row} (hl : ∀ x ∈ l, ItemOk true x)
    (hf : ∀ x, (f x).tup = x.row.tup) : Gentle l k (fun it => some { it with row := f it }) := by
  intro x hx hk y hy
  cases hy
  have h := hl x hx
  refine ⟨by rw [hf]; exact hk, Nat.le_refl _, ⟨h.dvd, h.lo, ?_, h.hi, ?_⟩, by rw [hf]⟩
  · intro _
    change PageSplit.need true (f x).tup ≤ _
    rw [hf]; exact h.need rfl
  · change (f x).tup.klen ≤ _
    rw [hf]; exact h.key

theorem LInv.row {kl : Nat → Nat} {s : Lev} (hi : LInv kl s) {k : Nat} {f : Item → Row}
    (hf : ∀ x, (f x).tup = x.row.tup)
    (hc : ∀ x, ∀ c ∈ (f x).chain, c ∈ x.row.chain ∨ ∀ t d, c.act ≠ .upd t d) :
    LInv kl (s.change k (fun it => some { it with row := f it })) := by
  refine hi.change (Gentle.row hi.items hf) ?_
  intro x hx hk y hy
  cases hy
  have h := hi.rows x hx
  refine ⟨by rw [hf]; exact h.klen, ?_⟩
  intro c hc' t d e
  rcases hc x c hc' with hc | hc
  · change _ ∧ t.key = (f x).tup.key ∧ t.klen = kl (f x).tup.key
    rw [hf]
    exact h.old c hc t d e
  · exact (hc t d e).elim

theorem undoItem_ok {kl : Nat → Nat} {bridge : Bool} {com : Env} {x : Nat} {it y : Item}
    (hr : RowOk kl it.row) (ho : ItemOk true it) (h : undoItem bridge com x it = some (some y)) :
    y.row.tup.key = it.row.tup.key ∧ y.size ≤ it.size ∧ ItemOk true y ∧
      y.row.tup.klen = it.row.tup.klen ∧ RowOk kl y.row := by
  unfold undoItem at h
  cases hd : it.row.chain.dropWhile Rec.isLock with
  | nil =>
    rw [hd] at h
    cases h
    exact ⟨rfl, Nat.le_refl _, ho, rfl, hr⟩
  | cons r rest =>
    rw [hd] at h
    dsimp only at h
    have hch : it.row.chain = it.row.chain.takeWhile Rec.isLock ++ r :: rest := by
      rw [← hd, List.takeWhile_append_dropWhile]
    generalize it.row.chain.takeWhile Rec.isLock = locks at *
    have hsub : ∀ c ∈ locks ++ rest, c ∈ it.row.chain := by
      intro c hc
      rw [hch]
      rcases List.mem_append.1 hc with hc | hc
      · exact List.mem_append_left _ hc
      · exact List.mem_append_right _ (List.mem_cons_of_mem _ hc)
    by_cases hx : r.xid = x ∧ com.fin x = false
    · rw [if_pos hx] at h
      cases ha : r.act with
      | ins =>
        rw [ha] at h
        dsimp only at h
        cases bridge with
        | true =>
          cases h
          exact ⟨rfl, Nat.le_refl _, ⟨ho.dvd, ho.lo, ho.need, ho.hi, ho.key⟩, rfl, hr.klen, hr.old⟩
        | false => cases h
      | del =>
        rw [ha] at h
        cases h
        exact ⟨rfl, Nat.le_refl _, ⟨ho.dvd, ho.lo, ho.need, ho.hi, ho.key⟩, rfl, hr.klen,
          fun c hc => hr.old c (hsub c hc)⟩
      | lock =>
        rw [ha] at h
        cases h
        exact ⟨rfl, Nat.le_refl _, ho, rfl, hr⟩
      | upd old d =>
        rw [ha] at h
        dsimp only at h
        obtain ⟨g1, g2, g3⟩ := hr.old r (by rw [hch]; simp) old d ha
        have hkl : old.klen = it.row.tup.klen := by rw [g3, hr.klen]
        by_cases hs : it.size < need true old
        · rw [if_pos hs] at h; cases h
        · rw [if_neg hs] at h
          cases h
          have hrow : RowOk kl ⟨old, d, locks ++ rest⟩ := by
            refine ⟨by rw [g3, ← g2], ?_⟩
            intro c hc t d' e
            obtain ⟨o1, o2, o3⟩ := hr.old c (hsub c hc) t d' e
            exact ⟨o1, by rw [o2, ← g2], by rw [o3, ← g2]⟩
          have hge : need true old ≤ it.size := by omega
          generalize finBefore com rest = b
          refine ⟨g2, ?_, ?_, hkl, hrow⟩
          · cases b
            · exact Nat.le_refl _
            · exact hge
          · have hkey : old.klen ≤ maxTup := by rw [hkl]; exact ho.key
            cases b
            · exact ⟨ho.dvd, ho.lo, fun _ => hge, ho.hi, hkey⟩
            · exact ⟨need_dvd _ _, Nat.le_add_right _ _, fun _ => Nat.le_refl _,
                Nat.le_trans hge ho.hi, hkey⟩
    · rw [if_neg hx] at h
      cases h
      exact ⟨rfl, Nat.le_refl _, ho, rfl, hr⟩

/-- What undoing makes of the row. -/
theorem undoItem_row {bridge : Bool} {com : Env} {x : Nat} {it : Item} {r : Option Item}
    (h : undoItem bridge com x it = some r) :
    undoRow bridge com x (some it.row) = some (r.map (·.row)) ∨
    (undoRow bridge com x (some it.row) = none ∧ r = some it) := by
  unfold undoItem at h
  unfold undoRow
  dsimp only
  rw [popChange_eq]
  cases hd : it.row.chain.dropWhile Rec.isLock with
  | nil =>
    rw [hd] at h
    cases h
    exact .inr ⟨rfl, rfl⟩
  | cons c rest =>
    rw [hd] at h
    dsimp only at h ⊢
    by_cases hx : c.xid = x ∧ com.fin x = false
    · rw [if_pos hx] at h ⊢
      cases ha : c.act with
      | ins =>
        rw [ha] at h
        cases h
        left
        dsimp only
        cases bridge <;> rfl
      | del => rw [ha] at h; cases h; exact .inl rfl
      | lock => rw [ha] at h; cases h; exact .inr ⟨rfl, rfl⟩
      | upd old d =>
        rw [ha] at h
        dsimp only at h
        by_cases hs : it.size < need true old
        · rw [if_pos hs] at h; cases h
        · rw [if_neg hs] at h
          cases h
          exact .inl rfl
    · rw [if_neg hx] at h ⊢
      cases h
      exact .inr ⟨rfl, rfl⟩


theorem change_same {kl : Nat → Nat} {s : Lev} (hi : LInv kl s) {k : Nat} {it : Item}
    (h : s.find k = some it) : (s.change k (fun _ => some it)).rows = s.rows := by
  obtain ⟨h1, h2⟩ := (find_spec hi k it).1 h
  unfold Lev.rows
  change (itemsOf (s.pages.map (Page.change k (fun _ => some it)))).map _ = _
  rw [itemsOf_change]
  have : ∀ l : List Item, (∀ x ∈ l, x ∈ itemsOf s.pages) →
      l.filterMap (atKey k (fun _ => some it)) = l := by
    intro l hl
    induction l with
    | nil => rfl
    | cons x l ih =>
      rw [List.filterMap_cons]
      have hx : atKey k (fun _ => some it) x = some x := by
        unfold atKey
        split
        · rename_i hk
          rw [sorted_inj hi.ranged.sorted.1 (hl x List.mem_cons_self) h1 (by rw [hk, h2])]
        · rfl
      rw [hx, ih (fun z hz => hl z (List.mem_cons_of_mem _ hz))]
  rw [this _ (fun x hx => hx)]

theorem pageFor_mono {a b : Nat} (h : a ≤ b) (ps : List Page) : pageFor a ps ≤ pageFor b ps := by
  induction ps with
  | nil => exact Nat.le_refl _
  | cons p ps ih =>
    unfold pageFor at *
    rw [List.findIdx_cons, List.findIdx_cons]
    cases hh : p.hi with
    | none => simp
    | some t =>
      by_cases hb : b < t.key
      · have ha : a < t.key := by omega
        simp [ha, hb]
      · by_cases ha : a < t.key
        · simp [ha]
        · simp only [Option.all_some, ha, hb, decide_false, cond_false]
          omega

/-- Why nothing is put for waiters. -/
theorem putAllAt_none {kl : Nat → Nat} {s : Lev} (hi : LInv kl s) {o : Orc}
    {half : Int → Int → Bool} {x : Nat} {t : Tup} {ws : List (Nat × Nat × Tup)} {l2 : List Nat}
    {csn : Option Nat} (h : putAllAt s o half x t ws l2 csn = none) :
    rowOf s.rows t.key ≠ none ∨ ∃ w ∈ ws, w.2.2.key < t.key := by
  obtain ⟨A, p, B, lo', e1, e2, ha, hr, hlo, hhi⟩ := pageFor_spec hi.ranged (Nat.zero_le t.key)
  have hg : s.pages[pageFor t.key s.pages]? = some p := by rw [e2, e1]; simp
  have hrow := rowAt_level ha hr hlo hhi
  rw [← e1] at hrow
  unfold putAllAt at h
  rw [hg] at h
  dsimp only at h
  split at h
  · rename_i hc
    simp only [Bool.or_eq_true, Bool.not_eq_true', List.all_eq_false, decide_eq_true_eq] at hc
    rcases hc with hc | ⟨w, hw, hc⟩
    · left
      obtain ⟨y, hy⟩ := Option.isSome_iff_exists.1 hc
      obtain ⟨h1, h2⟩ := (hrow y).1 hy
      have := rowOf_some hi h1
      rw [h2] at this
      rw [this]
      simp
    · right
      refine ⟨w, hw, ?_⟩
      have := mt (fun h => pageFor_mono h s.pages) hc
      omega
  · cases h

def unWaiter (w : Waiter) : Nat × Nat × Tup := (w.1, w.2.row.xid, w.2.row.tup)

theorem unWaiter_mk (w : Nat × Nat × Tup) : unWaiter (mkWaiter w) = w := rfl

theorem waiters_back {ys rej : List Waiter} {ws : List (Nat × Nat × Tup)}
    (h : (ys ++ rej).Perm (ws.map mkWaiter)) :
    (ys.map unWaiter ++ rej.map unWaiter).Perm ws ∧ ys = (ys.map unWaiter).map mkWaiter := by
  constructor
  · have := h.map unWaiter
    rw [List.map_append, List.map_map] at this
    have e : ws.map (unWaiter ∘ mkWaiter) = ws := by
      rw [show unWaiter ∘ mkWaiter = id from rfl, List.map_id]
    rwa [e] at this
  · rw [List.map_map]
    conv => lhs; rw [← List.map_id ys]
    refine List.map_congr_left ?_
    intro y hy
    obtain ⟨w, _, e⟩ := List.mem_map.1 (h.mem_iff.1 (List.mem_append_left _ hy))
    rw [← e]
    rfl

/-- Every operation succeeds and does what it should, unless an undo finds no room. -/
theorem LInv.step (bridge : Bool) {kl : Nat → Nat} {s : Lev} (hi : LInv kl s) {op : Op}
    (ho : OpOk kl op) :
    (∃ s', s.step bridge op = .ok s' ∧ LInv kl s' ∧ StepSpec bridge s op s') ∨
    (s.step bridge op = .over ∧ ∃ x k it, op = .undo x k ∧ it ∈ itemsOf s.pages ∧
      undoItem bridge s.com x it = none) := by
  cases op with
  | put o x t l1 l2 csn =>
    left
    simp only [Lev.step, StepSpec]
    cases hx : s.com.fin x with
    | true => exact ⟨s, rfl, hi, rfl⟩
    | false =>
      simp only [Bool.false_eq_true, if_false]
      rcases stepPut_ok bridge hi o x ho l1 l2 csn with ⟨h, it, h1, h2, h3⟩ | ⟨ps, old, n, h, h', h1, h2, h3, h4⟩
      · refine ⟨s, h, hi, ?_⟩
        have := rowOf_some hi h1
        rw [h2] at this
        rw [this]
        unfold putRow
        dsimp only
        rw [if_neg (fun hh => by rw [(canChange_iff _ _ _).2 hh] at h3; cases h3)]
        rfl
      · refine ⟨_, h, h', ?_⟩
        have hold : rowOf s.rows t.key = old.map (·.row) := by
          cases hd : old with
          | none =>
            refine rowOf_none hi ?_
            intro y hy hk
            rw [(h1 y).2 ⟨hy, hk⟩] at hd
            cases hd
          | some it =>
            obtain ⟨g1, g2⟩ := (h1 it).1 hd
            have := rowOf_some hi g1
            rw [g2] at this
            exact this
        have hput : putRow s.com x t (rowOf s.rows t.key) = some (some n.row) := by
          rw [hold, h3]
          cases hd : old with
          | none => rfl
          | some it =>
            have := (canChange_iff _ _ _).1 (h2 it hd).1
            unfold putRow
            rw [Option.map_some]
            dsimp only
            rw [if_pos this]
            rfl
        have hnk : n.row.tup.key = t.key := by rw [h3]; cases old <;> rfl
        rw [hput]
        refine ⟨?_, ?_⟩
        · obtain ⟨a', b', _, _, hb⟩ := h4.hold
          have hn : n ∈ itemsOf ps := (hb n).2 (.inr (List.mem_singleton.2 rfl))
          have := rowOf_some h' hn
          rw [hnk] at this
          exact this
        · refine PutEff.others (s' := { s with pages := ps }) hi h4 ?_ [] ?_
          · intro y hy
            have : old = some y := Option.mem_toList.1 hy
            exact ((h1 y).1 this).2
          · intro y hy
            rw [List.mem_singleton.1 hy]
            exact .inl hnk
  | putAll o half x t ws l2 csn =>
    left
    simp only [Lev.step, StepSpec]
    cases hx : s.com.fin x with
    | true => exact ⟨s, rfl, hi, .inl ⟨rfl, .inl rfl⟩⟩
    | false =>
      simp only [Bool.false_eq_true, if_false, false_or]
      rcases stepPutAll_ok hi o half x ho.1 ho.2 l2 csn with h | ⟨ps, ns, ys, rej, h, h', h1, h2, h3, h4⟩
      · refine ⟨s, ?_, hi, .inl ⟨rfl, putAllAt_none hi h⟩⟩
        unfold stepPutAll
        rw [h]
      · refine ⟨_, h, h', .inr ?_⟩
        obtain ⟨w1, w2⟩ := waiters_back h2
        obtain ⟨a', b', hh, ha, hb⟩ := h4.hold
        have hin : ∀ r, (r = newRow x t none ∨ r ∈ ys.map (·.2.row)) →
            r ∈ ({ s with pages := ps } : Lev).rows := by
          intro r hr
          obtain ⟨y, hy, e⟩ := List.mem_map.1 ((h3 r).2 hr)
          exact mem_rows.2 ⟨y, (hb y).2 (.inr hy), e⟩
        have hys : ∀ y ∈ ys.map unWaiter, (⟨y.2.2, false, [⟨y.2.1, .ins⟩]⟩ : Row) ∈ ys.map (·.2.row) := by
          intro y hy
          rw [w2, List.map_map]
          exact List.mem_map.2 ⟨y, hy, rfl⟩
        refine ⟨ys.map unWaiter, rej.map unWaiter, w1, ?_, hin _ (.inl rfl),
          fun y hy => hin _ (.inr (hys y hy)), ?_⟩
        · rw [h1, List.map_map]
          rfl
        · refine PutEff.others (s' := { s with pages := ps }) hi h4 (fun y hy => (by cases hy)) _ ?_
          intro y hy
          right
          rcases (h3 y.row).1 (List.mem_map.2 ⟨y, hy, rfl⟩) with e | e
          · rw [e]; exact List.mem_cons_self
          · refine List.mem_cons_of_mem _ ?_
            obtain ⟨z, hz, e⟩ := List.mem_map.1 e
            rw [w2] at hz
            obtain ⟨w, hw, rfl⟩ := List.mem_map.1 hz
            exact List.mem_map.2 ⟨w, hw, e⟩
  | del x k =>
    left
    simp only [Lev.step, StepSpec]
    cases hx : s.com.fin x with
    | true => exact ⟨s, rfl, hi, rfl⟩
    | false =>
      simp only [Bool.false_eq_true, if_false, Bool.false_or]
      rw [rowOf_spec hi]
      cases hf : s.find k with
      | none => exact ⟨s, rfl, hi, rfl⟩
      | some it =>
        simp only [Option.any_some, Option.map_some]
        by_cases hd : (!it.row.deleted && canDelete s.com x it.row) = true
        · have hd' := hd
          rw [Bool.and_eq_true, Bool.not_eq_true', canDelete_iff] at hd'
          have hi' : LInv kl (s.change k (fun it => some { it with row := { it.row with deleted := true, chain := ⟨x, .del⟩ :: it.row.chain } })) :=
            hi.row (k := k) (f := fun it => { it.row with deleted := true, chain := ⟨x, .del⟩ :: it.row.chain })
              (fun _ => rfl) (fun y c hc => by
                rcases List.mem_cons.1 hc with rfl | hc
                · exact .inr (fun t d e => (by cases e))
                · exact .inl hc)
          refine ⟨_, if_neg (by rw [hd]; decide), hi', ?_⟩
          unfold delRow
          dsimp only
          rw [if_pos hd']
          exact change_single hi hi' (fun y hy hk z hz => by cases hz; exact hk) hf
        · have hd' := hd
          rw [Bool.and_eq_true, Bool.not_eq_true', canDelete_iff] at hd'
          refine ⟨s, if_pos (by rw [Bool.eq_false_iff.2 hd]; rfl), hi, ?_⟩
          unfold delRow
          dsimp only
          rw [if_neg hd']
          rfl
  | lock x k =>
    left
    simp only [Lev.step, StepSpec]
    cases hx : s.com.fin x with
    | true => exact ⟨s, rfl, hi, rfl⟩
    | false =>
      simp only [Bool.false_eq_true, if_false, Bool.false_or]
      rw [rowOf_spec hi]
      cases hf : s.find k with
      | none => exact ⟨s, rfl, hi, rfl⟩
      | some it =>
        simp only [Option.any_some, Option.map_some]
        by_cases hd : canLock s.com x it.row = true
        · have hd' := (canLock_iff _ _ _).1 hd
          have hi' : LInv kl (s.change k (fun it => some { it with row := { it.row with chain := ⟨x, .lock⟩ :: it.row.chain } })) :=
            hi.row (k := k) (f := fun it => { it.row with chain := ⟨x, .lock⟩ :: it.row.chain })
              (fun _ => rfl) (fun y c hc => by
                rcases List.mem_cons.1 hc with rfl | hc
                · exact .inr (fun t d e => (by cases e))
                · exact .inl hc)
          refine ⟨_, if_neg (by rw [hd]; decide), hi', ?_⟩
          unfold lockRow
          dsimp only
          rw [if_pos hd']
          have := change_single hi hi' (fun y hy hk z hz => by cases hz; exact hk) hf
          rw [Option.map_some] at this
          rw [← hd'.1]
          exact this
        · have hd' := mt (canLock_iff _ _ _).2 hd
          refine ⟨s, if_pos (by rw [Bool.eq_false_iff.2 hd]; rfl), hi, ?_⟩
          unfold lockRow
          dsimp only
          rw [if_neg hd']
          rfl
  | unlock x k =>
    left
    simp only [Lev.step, StepSpec]
    have hi' : LInv kl (s.change k (fun it => some { it with row := { it.row with chain := it.row.chain.erase ⟨x, .lock⟩ } })) :=
      hi.row (k := k) (f := fun it => { it.row with chain := it.row.chain.erase ⟨x, .lock⟩ })
        (fun _ => rfl) (fun y c hc => .inl (List.mem_of_mem_erase hc))
    refine ⟨_, rfl, hi', ?_⟩
    rw [rowOf_spec hi]
    cases hf : s.find k with
    | none => exact change_absent hi hf
    | some it => exact change_single hi hi' (fun y hy hk z hz => by cases hz; exact hk) hf
  | undo x k =>
    simp only [Lev.step, StepSpec]
    rw [rowOf_spec hi]
    cases hf : s.find k with
    | none => exact .inl ⟨s, rfl, hi, rfl⟩
    | some it =>
      obtain ⟨h1, h2⟩ := (find_spec hi k it).1 hf
      dsimp only
      cases hu : undoItem bridge s.com x it with
      | none => exact .inr ⟨rfl, x, k, it, rfl, h1, hu⟩
      | some r =>
        left
        have huniq : ∀ y ∈ itemsOf s.pages, y.row.tup.key = k → y = it := fun y hy hk =>
          sorted_inj hi.ranged.sorted.1 hy h1 (by rw [hk, h2])
        have hg : ∀ y, r = some y → y.row.tup.key = it.row.tup.key ∧ y.size ≤ it.size ∧
            ItemOk true y ∧ y.row.tup.klen = it.row.tup.klen ∧ RowOk kl y.row := by
          intro y hy
          rw [hy] at hu
          exact undoItem_ok (hi.rows it h1) (hi.items it h1) hu
        have hi' : LInv kl (s.change k (fun _ => r)) := by
          refine hi.change ?_ ?_
          · intro y hy hk z hz
            obtain ⟨g1, g2, g3, g4, _⟩ := hg z hz
            rw [huniq y hy hk]
            exact ⟨by rw [g1, h2], g2, g3, g4⟩
          · intro y hy hk z hz
            exact (hg z hz).2.2.2.2
        refine ⟨_, rfl, hi', ?_⟩
        rw [Option.map_some]
        rcases undoItem_row hu with h | ⟨h, rfl⟩
        · rw [h]
          exact change_single hi hi' (fun y hy hk z hz => by rw [(hg z hz).1, h2]) hf
        · rw [h]
          exact change_same hi hf
  | finish x =>
    left
    simp only [Lev.step, StepSpec]
    cases hx : s.com.fin x with
    | true => exact ⟨s, rfl, hi, rfl⟩
    | false => exact ⟨_, rfl, ⟨hi.pages, hi.ranged, hi.rows⟩, rfl⟩
  | merge o vacR i l1 l2 csn =>
    left
    simp only [Lev.step, StepSpec]
    cases hl : s.pages[i]? with
    | none => exact ⟨s, rfl, hi, (Hold.refl _ _).others⟩
    | some l =>
      cases hr : s.pages[i + 1]? with
      | none => exact ⟨s, rfl, hi, (Hold.refl _ _).others⟩
      | some r =>
        obtain ⟨qs, h1, h2, h3⟩ := stepMerge_ok hi o vacR l1 l2 csn hl hr
        dsimp only
        rw [h1]
        exact ⟨_, rfl, h2, h3.others (s' := { s with pages := _ })⟩

theorem LInv.init (kl : Nat → Nat) : LInv kl Lev.init := by
  refine ⟨?_, ?_, ?_⟩
  · intro p hp
    rw [List.mem_singleton.1 hp]
    exact ⟨Page.empty_ok true, rfl⟩
  · exact ⟨fun x hx => (by cases hx), List.Pairwise.nil, rfl⟩
  · intro x hx
    cases hx

end Verif.PageSplit
