import Verif.PageSplit.Range
import Verif.PageSplit.PutItem

/-! # The leaf level keeps its rows: invariant and the insertions -/

namespace Verif.PageSplit

/-- All tuples of the row have the same key; keys that compare equal have the same length. -/
structure RowOk (kl : Nat → Nat) (r : Row) : Prop where
  klen : r.tup.klen = kl r.tup.key
  old : ∀ c ∈ r.chain, ∀ t d, c.act = .upd t d → t.len ≤ maxTup ∧ t.key = r.tup.key ∧
    t.klen = kl r.tup.key

structure LInv (kl : Nat → Nat) (s : Lev) : Prop where
  pages : ∀ p ∈ s.pages, p.Ok ∧ p.leaf = true
  ranged : Ranged 0 s.pages
  rows : ∀ x ∈ itemsOf s.pages, RowOk kl x.row

/-- A tuple may be put. -/
structure TupOk (kl : Nat → Nat) (t : Tup) : Prop where
  len : t.len ≤ maxTup
  klen : t.klen ≤ maxTup
  eq : t.klen = kl t.key

theorem only_le (com : Env) (l1 l2 : List Nat) : (com.only l1).le (com.only (l1 ++ l2)) := by
  intro x c h
  unfold Env.only at h ⊢
  split at h
  · rename_i hx
    rw [if_pos (List.mem_append_left _ hx)]; exact h
  · cases h

theorem only_com (com : Env) (l : List Nat) : (com.only l).le com := by
  intro x c h
  unfold Env.only at h
  split at h
  · exact h
  · cases h

theorem csnLe_next (n : Nat) (csn : Option Nat) : csnLe n (csn.map (· + n)) := by
  intro d h
  cases csn with
  | none => cases h
  | some c => simp only [Option.map_some, Option.some.injEq] at h; omega

theorem Carried.le {e e2 : Env} (h : e.le e2) {x y : Item} (hc : Carried e x y) :
    Carried e2 x y := by
  rcases hc with rfl | ⟨h1, rfl⟩
  · exact .inl rfl
  · exact .inr ⟨h.fin h1, rfl⟩

/-- What a reorganisation keeps. -/
structure Hold (com : Env) (a b : List Item) : Prop where
  from_ : ∀ y ∈ b, ∃ x ∈ a, Carried com x y
  to_ : ∀ x ∈ a, (∃ y ∈ b, Carried com x y) ∨ (x.row.deleted = true ∧ com.fin x.row.xid = true)

theorem Kept.hold {e com : Env} {csn : Option Nat} {a b : List Item} (he : e.le com)
    (h : Kept e csn a b) : Hold com a b := by
  constructor
  · intro y hy
    obtain ⟨x, hx, hc⟩ := h.mem y hy
    exact ⟨x, hx, hc.le he⟩
  · induction h with
    | nil => intro x hx; cases hx
    | @keep x y xs ys hc _ ih =>
      intro z hz
      rcases List.mem_cons.1 hz with rfl | hz
      · exact .inl ⟨y, List.mem_cons_self, hc.le he⟩
      · rcases ih z hz with ⟨w, hw, hc'⟩ | h
        · exact .inl ⟨w, List.mem_cons_of_mem _ hw, hc'⟩
        · exact .inr h
    | @drop x xs ys hd _ ih =>
      intro z hz
      rcases List.mem_cons.1 hz with rfl | hz
      · unfold Row.droppable at hd
        simp only [Bool.and_eq_true] at hd
        exact .inr ⟨hd.1.1, he.fin hd.1.2⟩
      · exact ih z hz

theorem Hold.refl (com : Env) (a : List Item) : Hold com a a :=
  ⟨fun y hy => ⟨y, hy, .inl rfl⟩, fun x hx => .inl ⟨x, hx, .inl rfl⟩⟩

theorem Hold.append {com : Env} {a b a' b' : List Item} (h : Hold com a b) (h' : Hold com a' b') :
    Hold com (a ++ a') (b ++ b') := by
  constructor
  · intro y hy
    rcases List.mem_append.1 hy with hy | hy
    · obtain ⟨x, hx, hc⟩ := h.from_ y hy
      exact ⟨x, List.mem_append_left _ hx, hc⟩
    · obtain ⟨x, hx, hc⟩ := h'.from_ y hy
      exact ⟨x, List.mem_append_right _ hx, hc⟩
  · intro x hx
    rcases List.mem_append.1 hx with hx | hx
    · rcases h.to_ x hx with ⟨y, hy, hc⟩ | h
      · exact .inl ⟨y, List.mem_append_left _ hy, hc⟩
      · exact .inr h
    · rcases h'.to_ x hx with ⟨y, hy, hc⟩ | h
      · exact .inl ⟨y, List.mem_append_right _ hy, hc⟩
      · exact .inr h

theorem Hold.same {com : Env} {a b a' b' : List Item} (ha : ∀ x, x ∈ a ↔ x ∈ a')
    (hb : ∀ x, x ∈ b ↔ x ∈ b') (h : Hold com a b) : Hold com a' b' := by
  constructor
  · intro y hy
    obtain ⟨x, hx, hc⟩ := h.from_ y ((hb y).2 hy)
    exact ⟨x, (ha x).1 hx, hc⟩
  · intro x hx
    rcases h.to_ x ((ha x).2 hx) with ⟨y, hy, hc⟩ | h
    · exact .inl ⟨y, (hb y).1 hy, hc⟩
    · exact .inr h

/-- Items `ns` are put, the items `os` they replace are gone; the others are held. -/
structure PutEff (com : Env) (a b os ns : List Item) : Prop where
  hold : ∃ a' b', Hold com a' b' ∧ (∀ x, x ∈ a ↔ x ∈ a' ∨ x ∈ os) ∧ (∀ y, y ∈ b ↔ y ∈ b' ∨ y ∈ ns)

theorem ItemOk.len {x : Item} (h : ItemOk true x) : x.row.tup.len ≤ maxTup := by
  have h1 := h.need rfl
  have h2 := h.hi
  unfold PageSplit.need at h1
  have h3 : x.row.tup.len ≤ ma x.row.tup.len := by unfold ma; omega
  omega

theorem newRow_ok {kl : Nat → Nat} {x : Nat} {t : Tup} (ht : TupOk kl t) {old : Option Item}
    (ho : ∀ it, old = some it → it.row.tup.key = t.key ∧ RowOk kl it.row ∧ ItemOk true it) :
    RowOk kl (newRow x t old) := by
  cases old with
  | none =>
    refine ⟨ht.eq, ?_⟩
    intro c hc u d hu
    have : c = ⟨x, .ins⟩ := by simpa [newRow] using hc
    subst this
    cases hu
  | some it =>
    obtain ⟨h1, h2, h3⟩ := ho it rfl
    refine ⟨ht.eq, ?_⟩
    intro c hc u d hu
    rcases List.mem_cons.1 hc with rfl | hc
    · cases hu
      exact ⟨h3.len, h1, by rw [h2.klen, h1]; rfl⟩
    · obtain ⟨g1, g2, g3⟩ := h2.old c hc u d hu
      exact ⟨g1, by rw [g2, h1]; rfl, by rw [g3, h1]; rfl⟩

theorem take_left' {A B : List Page} {p : Page} : (A ++ p :: B).take A.length = A := by simp

theorem drop_left' {A B : List Page} {p : Page} : (A ++ p :: B).drop (A.length + 1) = B := by simp

/-- The place at which an item is put, with the item it replaces. -/
theorem place_sorted {l : List Item} (hs : Sorted l) (new : Item) (replace : Bool)
    (h : replace = (l[lower new.row.tup.key l]?.any (fun x => x.row.tup.key == new.row.tup.key))) :
    Sorted (l.take (lower new.row.tup.key l) ++ new :: after l (lower new.row.tup.key l) replace) := by
  cases replace with
  | false => exact lower_insert hs new h.symm
  | true =>
    generalize lower new.row.tup.key l = off at *
    cases hg : l[off]? with
    | none => rw [hg] at h; cases h
    | some x =>
      rw [hg] at h
      have hk : x.row.tup.key = new.row.tup.key := by simpa using h.symm
      obtain ⟨hlt, hx⟩ := List.getElem?_eq_some_iff.1 hg
      have e : l = l.take off ++ x :: l.drop (off + 1) := by
        rw [← hx, List.getElem_cons_drop, List.take_append_drop]
      have hs' : Sorted (l.take off ++ x :: l.drop (off + 1)) := by rw [← e]; exact hs
      obtain ⟨h1, h2, h3⟩ := sorted_append.1 hs'
      obtain ⟨h4, h5⟩ := List.pairwise_cons.1 h2
      refine sorted_append.2 ⟨h1, List.pairwise_cons.2 ⟨?_, h5⟩, ?_⟩
      · intro y hy
        rw [← hk]; exact h4 y hy
      · intro y hy z hz
        rcases List.mem_cons.1 hz with rfl | hz
        · rw [← hk]; exact h3 y hy x List.mem_cons_self
        · exact h3 y hy z (List.mem_cons_of_mem _ hz)


theorem mem_itemsOf_mid {A B : List Page} {qs : List Page} {x : Item} :
    x ∈ itemsOf (A ++ qs ++ B) ↔ (x ∈ itemsOf A ∨ x ∈ itemsOf B) ∨ x ∈ itemsOf qs := by
  simp only [itemsOf, List.map_append, List.flatten_append, List.mem_append]
  constructor
  · rintro ((h | h) | h)
    · exact .inl (.inl h)
    · exact .inr h
    · exact .inl (.inr h)
  · rintro ((h | h) | h)
    · exact .inl (.inl h)
    · exact .inr h
    · exact .inl (.inr h)

theorem mem_itemsOf_page {A B : List Page} {p : Page} {x : Item} :
    x ∈ itemsOf (A ++ p :: B) ↔ (x ∈ itemsOf A ∨ x ∈ itemsOf B) ∨ x ∈ p.items := by
  have e : A ++ p :: B = A ++ [p] ++ B := by simp
  rw [e, mem_itemsOf_mid]
  simp [itemsOf]

/-- The row with the key, if there is one, is where the descent ends. -/
theorem rowAt_level {A B : List Page} {p : Page} {lo lo' k : Nat} (ha : Upto lo A lo')
    (hr : Ranged lo' (p :: B)) (hk : lo' ≤ k) (hh : ∀ t, p.hi = some t → k < t.key) (x : Item) :
    rowAt p k (lower k p.items) = some x ↔ x ∈ itemsOf (A ++ p :: B) ∧ x.row.tup.key = k := by
  rw [rowAt_spec hr.2.1, mem_itemsOf_page]
  constructor
  · rintro ⟨h1, h2⟩; exact ⟨.inr h1, h2⟩
  · rintro ⟨(h1 | h1) | h1, h2⟩
    · have := ha.lt x h1; omega
    · obtain ⟨_, _, h3⟩ := hr
      cases hp : p.hi with
      | none =>
        rw [hp] at h3
        dsimp only at h3
        rw [h3] at h1
        simp [itemsOf] at h1
      | some t =>
        rw [hp] at h3
        have := h3.2.2.sorted.2 x h1
        have := hh t hp
        omega
    · exact ⟨h1, h2⟩

/-- A transaction inserts or updates. -/
theorem stepPut_ok (bridge : Bool) {kl : Nat → Nat} {s : Lev} (hi : LInv kl s) (o : Orc) (x : Nat)
    {t : Tup} (ht : TupOk kl t) (l1 l2 : List Nat) (csn : Option Nat) :
    (stepPut bridge s o x t l1 l2 csn = .ok s ∧
      ∃ it ∈ itemsOf s.pages, it.row.tup.key = t.key ∧ canChange s.com x it.row = false) ∨
    ∃ ps old n, stepPut bridge s o x t l1 l2 csn = .ok { s with pages := ps } ∧
      LInv kl { s with pages := ps } ∧
      (∀ it, old = some it ↔ it ∈ itemsOf s.pages ∧ it.row.tup.key = t.key) ∧
      (∀ it, old = some it → canChange s.com x it.row = true ∧ it.size ≤ n.size) ∧
      n.row = newRow x t old ∧
      PutEff s.com (itemsOf s.pages) (itemsOf ps) old.toList [n] := by
  obtain ⟨A, p, B, lo', e1, e2, ha, hr, hlo, hhi⟩ := pageFor_spec hi.ranged (Nat.zero_le t.key)
  have hg : s.pages[pageFor t.key s.pages]? = some p := by rw [e2, e1]; simp
  have hpm : p ∈ s.pages := by rw [e1]; simp
  obtain ⟨hp, hl⟩ := hi.pages p hpm
  have hps : Sorted p.items := hr.2.1
  have hrow := rowAt_level ha hr hlo hhi
  rw [← e1] at hrow
  unfold stepPut
  rw [hg]
  dsimp only
  generalize hold : rowAt p t.key (lower t.key p.items) = old at *
  by_cases hc : (old.all fun it => canChange s.com x it.row) = true
  · right
    rw [if_pos hc]
    have hold' : ∀ it, old = some it → it.row.tup.key = t.key ∧ RowOk kl it.row ∧ ItemOk true it ∧
        it ∈ p.items := by
      intro it hit
      have h1 := (hrow it).1 hit
      rw [hit] at hold
      have h2 := ((rowAt_spec hps it).1 hold).1
      exact ⟨h1.2, hi.rows it h1.1, by have := hp.items it h2; rwa [hl] at this, h2⟩
    have hat : old = (p.items[lower t.key p.items]?).filter (fun it => it.row.tup.key == t.key) :=
      hold.symm
    have hrep : old.isSome =
        (p.items[lower t.key p.items]?.any (fun y => y.row.tup.key == t.key)) := by
      rw [hat]
      cases p.items[lower t.key p.items]? with
      | none => rfl
      | some y =>
        simp only [Option.filter, Option.any_some]
        split
        · rename_i h; rw [h]; rfl
        · rename_i h
          have : (y.row.tup.key == t.key) = false := by simpa using h
          rw [this]; rfl
    have hat2 : ∀ it, old = some it → p.items[lower t.key p.items]? = some it := by
      intro it hit
      rw [hat] at hit
      exact (Option.filter_eq_some_iff.1 hit).1
    let new : Item := ⟨newRow x t old, need true t⟩
    have hnt : new.row.tup = t := by cases old <;> rfl
    have hpre : PutPre p (lower t.key p.items) new old.isSome := by
      refine ⟨by rw [hl, hnt], by rw [hnt]; exact ht.len, by rw [hnt]; exact ht.klen,
        lower_le _ _, ?_, fun h => (by rw [hl] at h; cases h), fun h => (by rw [hl] at h; cases h)⟩
      intro h
      obtain ⟨it, hit⟩ := Option.isSome_iff_exists.1 h
      exact ⟨(List.getElem?_eq_some_iff.1 (hat2 it hit)).1, hl⟩
    obtain ⟨qs, hq, hout⟩ := putItem_ok bridge o hp hpre (only_le s.com l1 l2)
      (csnLe_next s.next csn) (by
        intro h
        obtain ⟨it, hit⟩ := Option.isSome_iff_exists.1 h
        obtain ⟨h1, h2, _, h4⟩ := hold' it hit
        have h5 := hp.keys it (by rw [hl]; exact h4)
        rw [hnt, ht.eq, ← h1, ← h2.klen]
        exact h5)
    obtain ⟨A', B', n, k1, k2, k3, k4, k5, k6⟩ := hout.leaf hl
    have hsort : Sorted (p.items.take (lower t.key p.items) ++ new ::
        after p.items (lower t.key p.items) old.isSome) := by
      have := place_sorted hps new old.isSome (by rw [hnt]; exact hrep)
      rwa [hnt] at this
    have hqs : itemsOf qs = A' ++ n :: B' := k6
    have hsq : Sorted (itemsOf qs) := by
      rw [hqs]
      refine Sorted.sub ?_ hsort
      rw [List.map_append, List.map_append, List.map_cons, List.map_cons, k3]
      exact k1.sub.append (k2.sub.cons_cons _)
    have hmem : ∀ y ∈ itemsOf qs, y.row.tup = t ∧ y = n ∨ ∃ z ∈ p.items, z.row = y.row := by
      intro y hy
      rw [hqs] at hy
      rcases List.mem_append.1 hy with hy | hy
      · obtain ⟨z, hz, hc⟩ := k1.mem y hy
        exact .inr ⟨z, List.mem_of_mem_take hz, hc.row.symm⟩
      · rcases List.mem_cons.1 hy with rfl | hy
        · exact .inl ⟨by rw [k3]; exact hnt, rfl⟩
        · obtain ⟨z, hz, hc⟩ := k2.mem y hy
          exact .inr ⟨z, List.mem_of_mem_drop hz, hc.row.symm⟩
    have hrange : Ranged 0 (A ++ qs ++ B) := by
      refine Ranged.put ha hr hout.div hsq ?_ ?_
      · intro y hy
        rcases hmem y hy with ⟨h, _⟩ | ⟨z, hz, h⟩
        · rw [h]; exact hlo
        · rw [← h]; exact hr.1 z hz
      · intro u hu y hy
        rcases hmem y hy with ⟨h, _⟩ | ⟨z, hz, h⟩
        · rw [h]; exact hhi u hu
        · rw [← h]
          have h3 := hr.2.2
          rw [hu] at h3
          exact h3.2.1 z hz
    refine ⟨A ++ qs ++ B, old, n, ?_, ⟨?_, hrange, ?_⟩, hrow, ?_, k3, ?_⟩
    · change s.sub _ (putItem bridge o p _ _ s.next _ _ new old.isSome) = _
      rw [hq]
      simp only [Lev.sub, e2]
      rw [e1, take_left', drop_left']
    · intro q hq'
      simp only [List.mem_append] at hq'
      rcases hq' with (hq' | hq') | hq'
      · exact hi.pages q (by rw [e1]; simp [hq'])
      · have := hout.ok q hq'
        exact ⟨this.1, by rw [this.2, hl]⟩
      · exact hi.pages q (by rw [e1]; simp [hq'])
    · intro y hy
      rcases mem_itemsOf_mid.1 hy with h | hy
      · refine hi.rows y ?_
        rw [e1]
        exact mem_itemsOf_page.2 (.inl h)
      · rcases hmem y hy with ⟨_, rfl⟩ | ⟨z, hz, h⟩
        · rw [k3]
          exact newRow_ok ht (fun it hit => ⟨(hold' it hit).1, (hold' it hit).2.1, (hold' it hit).2.2.1⟩)
        · rw [← h]
          refine hi.rows z ?_
          rw [e1]
          exact mem_itemsOf_page.2 (.inr hz)
    · intro it hit
      refine ⟨?_, k5 it (by rw [hit]; rfl) (hat2 it hit)⟩
      rw [hit] at hc
      exact hc
    · have h1 := Kept.hold (only_com s.com (l1 ++ l2)) k1
      have h2 := Kept.hold (only_com s.com (l1 ++ l2)) k2
      refine ⟨_, _, ((Hold.refl s.com (itemsOf A ++ itemsOf B)).append (h1.append h2)), ?_, ?_⟩
      · intro y
        rw [e1, mem_itemsOf_page, List.mem_append, List.mem_append, List.mem_append,
          or_assoc (a := y ∈ itemsOf A ∨ y ∈ itemsOf B)]
        refine or_congr Iff.rfl ?_
        have hpi : p.items = p.items.take (lower t.key p.items) ++
            p.items.drop (lower t.key p.items) := (List.take_append_drop _ _).symm
        rw [or_assoc]
        conv => lhs; rw [hpi, List.mem_append]
        refine or_congr Iff.rfl ?_
        unfold after
        cases ho : old with
        | none => simp
        | some it =>
          obtain ⟨hlt, hx⟩ := List.getElem?_eq_some_iff.1 (hat2 it ho)
          simp only [Option.isSome_some, if_true, Option.toList_some, List.mem_singleton]
          rw [← List.getElem_cons_drop hlt, hx, List.mem_cons, or_comm]
      · intro y
        rw [mem_itemsOf_mid, hqs]
        simp only [List.mem_append, List.mem_cons, List.not_mem_nil, or_false]
        constructor
        · rintro (h | h | h | h)
          · exact .inl (.inl h)
          · exact .inl (.inr (.inl h))
          · exact .inr h
          · exact .inl (.inr (.inr h))
        · rintro ((h | h | h) | h)
          · exact .inl h
          · exact .inr (.inl h)
          · exact .inr (.inr (.inr h))
          · exact .inr (.inr (.inl h))
  · left
    rw [if_neg hc]
    refine ⟨rfl, ?_⟩
    cases ho : old with
    | none => rw [ho] at hc; exact (hc rfl).elim
    | some it =>
      rw [ho] at hc
      obtain ⟨h1, h2⟩ := (hrow it).1 ho
      exact ⟨it, h1, h2, by simpa using hc⟩


theorem mkWaiter_ok {kl : Nat → Nat} {w : Nat × Nat × Tup} (h : TupOk kl w.2.2) : WOk (mkWaiter w) :=
  ⟨rfl, h.len, h.klen⟩

/-- A transaction inserts a new key, with the tuples of waiting processes. -/
theorem stepPutAll_ok {kl : Nat → Nat} {s : Lev} (hi : LInv kl s) (o : Orc)
    (half : Int → Int → Bool) (x : Nat) {t : Tup} (ht : TupOk kl t) {ws : List (Nat × Nat × Tup)}
    (hw : ∀ w ∈ ws, TupOk kl w.2.2) (l2 : List Nat) (csn : Option Nat) :
    putAllAt s o half x t ws l2 csn = none ∨
    ∃ (ps : List Page) (ns : List Item) (ys rej : List Waiter),
      stepPutAll s o half x t ws l2 csn = .ok { s with pages := ps } ∧
      LInv kl { s with pages := ps } ∧
      toldInserted s o half x t ws l2 csn = ys.map (·.1) ∧ (ys ++ rej).Perm (ws.map mkWaiter) ∧
      (∀ r, r ∈ ns.map (·.row) ↔ r = newRow x t none ∨ r ∈ ys.map (·.2.row)) ∧
      PutEff s.com (itemsOf s.pages) (itemsOf ps) [] ns := by
  obtain ⟨A, p, B, lo', e1, e2, ha, hr, hlo, hhi⟩ := pageFor_spec hi.ranged (Nat.zero_le t.key)
  have hg : s.pages[pageFor t.key s.pages]? = some p := by rw [e2, e1]; simp
  have hpm : p ∈ s.pages := by rw [e1]; simp
  obtain ⟨hp, hl⟩ := hi.pages p hpm
  have hps : Sorted p.items := hr.2.1
  unfold stepPutAll toldInserted
  by_cases hc : ((rowAt p t.key (lower t.key p.items)).isSome ||
        !ws.all (fun w => decide (pageFor t.key s.pages ≤ pageFor w.2.2.key s.pages))) = true
  · left
    unfold putAllAt
    rw [hg]
    dsimp only
    rw [if_pos hc]
  · right
    have hat : putAllAt s o half x t ws l2 csn = some (putWaiters o half p (s.com.only l2)
        (csn.map (· + s.next)) (lower t.key p.items) ⟨newRow x t none, need true t⟩
        (ws.map mkWaiter)) := by
      unfold putAllAt
      rw [hg]
      dsimp only
      rw [if_neg hc]
    rw [hat]
    dsimp only
    simp only [Bool.or_eq_true, not_or, Bool.not_eq_true, Bool.not_eq_true', Bool.not_eq_false,
      List.all_eq_true, decide_eq_true_eq] at hc
    obtain ⟨hc1, hc2⟩ := hc
    let new : Item := ⟨newRow x t none, need true t⟩
    have hpre : PutPre p (lower t.key p.items) new false :=
      ⟨by rw [hl]; rfl, ht.len, ht.klen, lower_le _ _, fun h => (by cases h),
        fun h => (by rw [hl] at h; cases h), fun h => (by rw [hl] at h; cases h)⟩
    have hsort : Sorted (p.items.take (lower t.key p.items) ++ new ::
        p.items.drop (lower t.key p.items)) := by
      refine lower_insert (new := new) hps ?_
      unfold rowAt at hc1
      change (p.items[lower t.key p.items]?.any (fun y => y.row.tup.key == t.key)) = false
      cases hy : p.items[lower t.key p.items]? with
      | none => rfl
      | some y =>
        rw [hy] at hc1
        simp only [Option.filter, Option.any_some] at hc1 ⊢
        split at hc1
        · cases hc1
        · rename_i h; simpa using h
    obtain ⟨qs, ids, hq, hout⟩ := putWaiters_ok o half (e2 := s.com.only l2)
      (csn := csn.map (· + s.next)) (ws := ws.map mkWaiter) hp hl hpre hsort (by
        intro y hy
        obtain ⟨w, hwm, rfl⟩ := List.mem_map.1 hy
        exact mkWaiter_ok (hw w hwm))
    have hqdef : putWaiters o half p (s.com.only l2) (csn.map (· + s.next)) (lower t.key p.items)
        ⟨newRow x t none, need true t⟩ (ws.map mkWaiter) = (.ok qs, ids) := hq
    rw [hqdef]
    obtain ⟨K, ys, rej, k1, k2, k3, k4, k5, k6⟩ := hout.rows
    have hys : ∀ y ∈ ys, ∃ w ∈ ws, y = mkWaiter w := by
      intro y hy
      obtain ⟨w, hwm, e⟩ := List.mem_map.1 (k2.mem_iff.1 (List.mem_append_left _ hy))
      exact ⟨w, hwm, e.symm⟩
    have hflat : ∀ y ∈ itemsOf qs, y.row = new.row ∨ (∃ z ∈ K, z.row = y.row) ∨
        ∃ w ∈ ys, w.2.row = y.row := by
      intro y hy
      have := k4.mem_iff.1 (List.mem_map.2 ⟨y, hy, rfl⟩)
      rcases List.mem_cons.1 this with h | h
      · exact .inl h
      · rcases List.mem_append.1 h with h | h
        · obtain ⟨z, hz, e⟩ := List.mem_map.1 h
          exact .inr (.inl ⟨z, hz, e⟩)
        · obtain ⟨z, hz, e⟩ := List.mem_map.1 h
          exact .inr (.inr ⟨z, hz, e⟩)
    have hKp : ∀ z ∈ K, ∃ u ∈ p.items, u.row = z.row := by
      intro z hz
      obtain ⟨u, hu, hc⟩ := k1.mem z hz
      exact ⟨u, hu, hc.row.symm⟩
    have hrange : Ranged 0 (A ++ qs ++ B) := by
      refine Ranged.put ha hr hout.div hout.sorted ?_ ?_
      · intro y hy
        rcases hflat y hy with h | ⟨z, hz, h⟩ | ⟨w, hwm, h⟩
        · rw [h]; exact hlo
        · obtain ⟨u, hu, h'⟩ := hKp z hz
          rw [← h, ← h']; exact hr.1 u hu
        · obtain ⟨w', hw', rfl⟩ := hys w hwm
          have h4 := hc2 w' hw'
          rw [e2] at h4
          have h5 := pageFor_ge (B := p :: B) ha (Nat.zero_le w'.2.2.key) (by rw [← e1]; exact h4)
          rw [← h]; exact h5
      · intro u hu y hy
        rcases hflat y hy with h | ⟨z, hz, h⟩ | ⟨w, hwm, h⟩
        · rw [h]; exact hhi u hu
        · obtain ⟨v, hv, h'⟩ := hKp z hz
          rw [← h, ← h']
          have h3 := hr.2.2
          rw [hu] at h3
          exact h3.2.1 v hv
        · rw [← h]; exact k6 u hu w hwm
    have hkeys : ((new.row :: (K.map (·.row) ++ ys.map (·.2.row))).map (·.tup.key)).Nodup := by
      refine ((k4.map (·.tup.key)).nodup_iff).1 ?_
      have := hout.sorted
      unfold Sorted at this
      rw [List.map_map]
      exact List.pairwise_map.2 (this.imp (fun h => Nat.ne_of_lt h))
    refine ⟨A ++ qs ++ B, (itemsOf qs).filter (fun y => decide (y ∉ K)), ys, rej, ?_,
      ⟨?_, hrange, ?_⟩, k3, k2, ?_, ?_⟩
    · simp only [Lev.sub, e2]
      rw [e1, take_left', drop_left']
    · intro q hq'
      simp only [List.mem_append] at hq'
      rcases hq' with (hq' | hq') | hq'
      · exact hi.pages q (by rw [e1]; simp [hq'])
      · exact hout.ok q hq'
      · exact hi.pages q (by rw [e1]; simp [hq'])
    · intro y hy
      rcases mem_itemsOf_mid.1 hy with h | hy
      · refine hi.rows y ?_
        rw [e1]
        exact mem_itemsOf_page.2 (.inl h)
      · rcases hflat y hy with h | ⟨z, hz, h⟩ | ⟨w, hwm, h⟩
        · rw [h]
          exact newRow_ok (old := none) ht (fun it hit => (by cases hit))
        · obtain ⟨u, hu, h'⟩ := hKp z hz
          rw [← h, ← h']
          refine hi.rows u ?_
          rw [e1]
          exact mem_itemsOf_page.2 (.inr hu)
        · obtain ⟨w', hw', rfl⟩ := hys w hwm
          rw [← h]
          exact newRow_ok (old := none) (hw w' hw') (fun it hit => (by cases hit))
    · intro r
      constructor
      · intro hrm
        obtain ⟨y, hy, rfl⟩ := List.mem_map.1 hrm
        obtain ⟨h1, h2⟩ := List.mem_filter.1 hy
        have h2' : y ∉ K := by simpa using h2
        rcases hflat y h1 with h | ⟨z, hz, h⟩ | ⟨w, hwm, h⟩
        · exact .inl h
        · exact (h2' (sorted_inj hout.sorted (k5 z hz) h1 (by rw [h]) ▸ hz)).elim
        · exact .inr (List.mem_map.2 ⟨w, hwm, h⟩)
      · intro hrm
        have hin : r ∈ (itemsOf qs).map (·.row) := by
          refine k4.mem_iff.2 ?_
          rcases hrm with h | h
          · rw [h]; exact List.mem_cons_self
          · exact List.mem_cons_of_mem _ (List.mem_append_right _ h)
        obtain ⟨y, hy, rfl⟩ := List.mem_map.1 hin
        refine List.mem_map.2 ⟨y, List.mem_filter.2 ⟨hy, ?_⟩, rfl⟩
        have : y ∉ K := by
          intro hK
          rw [List.map_cons, List.map_append, List.nodup_cons, List.nodup_append] at hkeys
          obtain ⟨n1, n2, n3, n4⟩ := hkeys
          have hyk : y.row.tup.key ∈ (K.map (·.row)).map (·.tup.key) :=
            List.mem_map.2 ⟨y.row, List.mem_map.2 ⟨y, hK, rfl⟩, rfl⟩
          rcases hrm with h | h
          · refine n1 (List.mem_append_left _ ?_)
            have h' : y.row = new.row := h
            rw [← h']; exact hyk
          · exact n4 _ hyk _ (List.mem_map.2 ⟨y.row, h, rfl⟩) rfl
        simpa using this
    · have h1 := Kept.hold (only_com s.com l2) k1
      refine ⟨_, _, ((Hold.refl s.com (itemsOf A ++ itemsOf B)).append h1), ?_, ?_⟩
      · intro y
        rw [e1, mem_itemsOf_page, List.mem_append, List.mem_append]
        simp
      · intro y
        rw [mem_itemsOf_mid, List.mem_append, List.mem_append,
          or_assoc (a := y ∈ itemsOf A ∨ y ∈ itemsOf B)]
        refine or_congr Iff.rfl ?_
        rw [List.mem_filter]
        constructor
        · intro h
          by_cases hK : y ∈ K
          · exact .inl hK
          · exact .inr ⟨h, by simpa using hK⟩
        · rintro (h | h)
          · exact k5 y h
          · exact h.1

end Verif.PageSplit
