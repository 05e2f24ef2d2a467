import Verif.Rewind.OrderProofs

/-! # Rewind: properties C105 to C114 -/

namespace Verif.Rewind

theorem any_run {α : Type} {x : Option α} {p : α → Bool} (h : x.any p = true) : ∃ s, x = some s ∧ p s = true := by
  cases x with
  | none => cases h
  | some a => exact ⟨a, rfl, h⟩

/-- A small configuration: two blocks of two items. -/
def small : Cfg := ⟨4, 2⟩

theorem small_ok : small.Ok := ⟨by decide, 2, by decide, rfl⟩

/-- One backend adds one item, alone. -/
def addOne {α : Type} (p : Nat) (x : α) : List (Act α) :=
  [.reserve p [x], .admit p, .put p, .tryCas p, .look p]

/-! ## C105 -/

/-- C105.  Whatever the interleaving, the worker completes the items in the order in which
their places were reserved, each exactly once and with the contents given; and a rewind
reads exactly the items that are filled and not completed, newest first, whether they are
in the buffer they were put into, in the file or in the buffer they are completed from. -/
theorem C105_queue {α : Type} (cf : Cfg) (hcf : cf.Ok) (q : Q α) (h : Reach cf q) :
    (q.c ≤ q.r ∧ q.r ≤ q.e ∧ q.e ≤ q.af ∧ q.af ≤ q.ar ∧ q.ar = q.log.length) ∧
    q.out = (q.log.take q.c).map some ∧
    (q.lock = none → walkAll cf q = (((q.log.take q.af).drop q.c).reverse).map some) := by
  have hi := inv_reach hcf h
  exact ⟨⟨hi.cr, hi.re, hi.eaf, hi.afar, hi.arl⟩, hi.hout, fun hl => walkAll_ok hi hl hcf.1⟩

/-- A history in which one item is completed, three are in the complete buffer, two in the
file, two in the add buffer. -/
def hist : List (Act Nat) :=
  addOne 0 10 ++ addOne 1 11 ++ [.move, .move] ++ addOne 0 12 ++ [.move] ++ addOne 1 13 ++ [.move] ++
  addOne 0 14 ++ addOne 1 15 ++ addOne 0 16 ++ [.evict, .clear, .clear] ++ addOne 1 17 ++ [.complete]

theorem C105_case : ∃ q, run small Q.init hist = some q ∧ Reach small q ∧ q.lock = none ∧ q.out = [some 10] ∧
    q.c = 1 ∧ q.r = 4 ∧ q.e = 6 ∧ q.af = 8 ∧ q.ar = 8 ∧
    walkAll small q = [some 17, some 16, some 15, some 14, some 13, some 12, some 11] := by
  obtain ⟨q, e, hp⟩ := any_run (x := run small Q.init hist)
    (p := fun q => decide (q.lock = none) && decide (q.out = [some 10]) && decide (q.c = 1) && decide (q.r = 4) &&
      decide (q.e = 6) && decide (q.af = 8) && decide (q.ar = 8) &&
      decide (walkAll small q = [some 17, some 16, some 15, some 14, some 13, some 12, some 11])) (by decide +kernel)
  simp only [Bool.and_eq_true, decide_eq_true_eq] at hp
  obtain ⟨⟨⟨⟨⟨⟨⟨h1, h2⟩, h3⟩, h4⟩, h5⟩, h6⟩, h7⟩, h8⟩ := hp
  exact ⟨q, e, ⟨hist, e⟩, h1, h2, h3, h4, h5, h6, h7, h8⟩

/-! ## C106 -/

/-- C106.  `addPosFilledUpto` never passes an item that is not in place, and is not left
behind: once no backend is inside, everything reserved is below it. -/
theorem C106_filled {α : Type} (cf : Cfg) (hcf : cf.Ok) (q : Q α) (h : Reach cf q) :
    (∀ p, q.e ≤ p → p < q.af → q.add (p % cf.size) = q.log[p]? ∧ q.log[p]?.isSome) ∧
    ((∀ i, q.procs i = .idle) → q.af = q.ar) := by
  have hi := inv_reach hcf h
  have h1 := hi.afar; have h2 := hi.arl
  refine ⟨fun p h3 h4 => ⟨(hi.add1 p h3 (by omega) (fun i hp => ?_)).1, ?_⟩, fun hid => ?_⟩
  · have := hi.pr i p hp; omega
  · rw [List.getElem?_eq_getElem (by omega)]; rfl
  · rcases Nat.lt_or_ge q.af q.ar with hlt | hge
    · obtain ⟨i, hr⟩ := hi.rs hlt
      rw [hid i] at hr; cases hr
    · omega

/-- Two backends fill in the opposite order; the pointer waits for the first and then
passes both items. -/
def cross : List (Act Nat) :=
  [.reserve 0 [10], .reserve 1 [11], .admit 1, .put 1, .tryCas 1, .admit 0, .put 0]

theorem C106_case :
    (∃ q, run small Q.init cross = some q ∧ q.af = 0 ∧ q.ar = 2) ∧
    (∃ q, run small Q.init (cross ++ [.tryCas 0, .look 0, .tryCas 0, .look 0]) = some q ∧ q.af = 2 ∧ q.ar = 2) := by
  constructor
  · obtain ⟨q, e, hp⟩ := any_run (x := run small Q.init cross)
      (p := fun q => decide (q.af = 0) && decide (q.ar = 2)) (by decide +kernel)
    simp only [Bool.and_eq_true, decide_eq_true_eq] at hp
    exact ⟨q, e, hp⟩
  · obtain ⟨q, e, hp⟩ := any_run (x := run small Q.init (cross ++ [.tryCas 0, .look 0, .tryCas 0, .look 0]))
      (p := fun q => decide (q.af = 2) && decide (q.ar = 2)) (by decide +kernel)
    simp only [Bool.and_eq_true, decide_eq_true_eq] at hp
    exact ⟨q, e, hp⟩

/-! ## C107 -/

/-- Actions of an evicting backend. -/
def Act.evicts {α : Type} : Act α → Bool
  | .move | .evict | .clear => true
  | _ => false

theorem run_cons {α : Type} {cf : Cfg} {q q1 q2 : Q α} {a : Act α} {as} (h1 : step cf q a = some q1)
    (h2 : run cf q1 as = some q2) : run cf q (a :: as) = some q2 := by
  simp only [run, h1, Option.bind_some, h2]

/-- C107, part.  A backend whose turn it is (everything before its places is filled) and
whose items leave room for one block and one empty slot gets in by evicting alone,
without the worker.  Missing: a transaction with more items than that, for which
`C107_violated` shows that it can wait for ever. -/
theorem C107_partial {α : Type} (cf : Cfg) (hcf : cf.Ok) (q : Q α) (h : Reach cf q) (p s : Nat) (it : List α)
    (hw : q.procs p = .wait s it) (hs : s = q.af) (hlen : it.length + cf.blk + 1 ≤ cf.size) :
    ∃ as q', (∀ a ∈ as, a.evicts = true) ∧ run cf q as = some q' ∧
      (step cf q' (.admit p)).isSome = true := by
  have hi := inv_reach hcf h
  clear h
  generalize hn : 2 * (s + it.length + 1 - (q.e + cf.size)) + (if q.lock = none then 1 else 0) = n
  induction n using Nat.strongRecOn generalizing q with
  | ind n ih =>
    by_cases ha : s + it.length + 1 ≤ q.e + cf.size
    · exact ⟨[], q, by simp, rfl, by simp [step, doAdmit, hw, ha]⟩
    · have hpos := hcf.1
      -- one more action
      have go : ∀ (a : Act α) (q1 : Q α), a.evicts = true → step cf q a = some q1 → q1.procs = q.procs →
          q1.af = q.af →
          2 * (s + it.length + 1 - (q1.e + cf.size)) + (if q1.lock = none then 1 else 0) < n →
          ∃ as q', (∀ a ∈ as, a.evicts = true) ∧ run cf q as = some q' ∧
            (step cf q' (.admit p)).isSome = true := by
        intro a q1 hev hst hpr haf hlt
        obtain ⟨as, q', r1, r2, r3⟩ := ih _ hlt q1 (by rw [hpr]; exact hw) (by rw [haf]; exact hs)
          (inv_step hcf hi hst) rfl
        refine ⟨a :: as, q', ?_, run_cons hst r2, r3⟩
        intro b hb
        rcases List.mem_cons.1 hb with rfl | hb
        · exact hev
        · exact r1 b hb
      cases hl : q.lock with
      | some t =>
        rw [hl] at hn
        have hst : step cf q .clear = some { q with add := upd q.add (q.e % cf.size) none, e := q.e + 1
                                                    lock := if q.e + 1 = t then none else some t } := by
          simp only [step, doClear, hl]
        refine go .clear _ rfl hst rfl rfl ?_
        simp only [reduceCtorEq, if_false] at hn ⊢
        split <;> simp <;> omega
      | none =>
        rw [hl] at hn
        simp only [if_true] at hn
        cases hf : fast cf q with
        | true =>
          have hst : step cf q .move = some { q with comp := upd q.comp (q.r % cf.size) (q.add (q.e % cf.size))
                                                     add := upd q.add (q.e % cf.size) none
                                                     e := q.e + 1, r := q.r + 1 } := by
            simp only [step, doMove]; rw [if_pos ⟨hl, hf, by omega⟩]
          refine go .move _ rfl hst rfl rfl ?_
          simp only [hl, if_true]; omega
        | false =>
          have hst : step cf q .evict = some
              { q with disk := fun p => if q.e ≤ p ∧ p < q.e + cf.blk then q.add (p % cf.size) else q.disk p
                       lock := some (q.e + cf.blk) } := by
            simp only [step, doEvict]; rw [if_pos ⟨hl, hf, by omega⟩]
          refine go .evict _ rfl hst rfl rfl ?_
          simp only [reduceCtorEq, if_false]; omega

/-- A full add buffer with a backend waiting in front of it. -/
def full : List (Act Nat) := addOne 0 10 ++ addOne 0 11 ++ addOne 0 12 ++ [.reserve 1 [13]]

theorem C107_partial_case : ∃ q, run small Q.init full = some q ∧ Reach small q ∧ q.procs 1 = .wait q.af [13] ∧
    [13].length + small.blk + 1 ≤ small.size ∧ step small q (.admit 1) = none := by
  obtain ⟨q, e, hp⟩ := any_run (x := run small Q.init full)
    (p := fun q => (match q.procs 1 with | .wait s it => decide (s = q.af) && decide (it = [13]) | _ => false) &&
      (step small q (.admit 1)).isNone) (by decide +kernel)
  simp only [Bool.and_eq_true, Option.isNone_iff_eq_none] at hp
  refine ⟨q, e, ⟨full, e⟩, ?_, by decide, hp.2⟩
  have h1 := hp.1
  split at h1
  · rename_i s it hq
    simp only [Bool.and_eq_true, decide_eq_true_eq] at h1
    rw [hq, h1.1, h1.2]
  · cases h1

theorem proc_stays {α : Type} {cf : Cfg} {q q' : Q α} (hi : Inv cf q) {p s : Nat} {it : List α}
    (hw : q.procs p = .wait s it) (hbig : cf.size ≤ it.length) {a : Act α} (e : step cf q a = some q') :
    q'.procs p = .wait s it := by
  have hok := hi.ok p
  rw [hw] at hok
  have haf := (hi.pr p s (by rw [hw]; exact ⟨Nat.le_refl _, by have := hok.1; omega⟩)).1
  have he := hi.eaf
  have other : ∀ p1 (x : Proc α), p1 ≠ p → upd q.procs p1 x p = .wait s it := by
    intro p1 x hne
    rw [upd_ne _ _ (fun hh => hne hh.symm)]; exact hw
  cases a with
  | reserve p1 it1 =>
    simp only [step, doReserve] at e
    split at e
    · rename_i hid
      split at e
      · cases e
      · injection e with e; subst e
        exact other p1 _ (fun hh => by rw [hh, hw] at hid; cases hid)
    · cases e
  | admit p1 =>
    simp only [step, doAdmit] at e
    split at e
    · rename_i s1 it1 hid
      split at e
      · rename_i hroom
        injection e with e; subst e
        refine other p1 _ (fun hh => ?_)
        rw [hh, hw] at hid
        injection hid with h1 h2
        subst h1; subst h2
        omega
      · cases e
    · cases e
  | put p1 =>
    simp only [step, doPut] at e
    split at e
    · rename_i hid
      split at e
      · cases e
      · injection e with e; subst e
        exact other p1 _ (fun hh => by rw [hh, hw] at hid; cases hid)
    · cases e
  | tryCas p1 =>
    simp only [step, doCas] at e
    split at e
    · rename_i hid
      have hne : p1 ≠ p := fun hh => by rw [hh, hw] at hid; cases hid
      split at e
      · injection e with e; subst e; exact other p1 _ hne
      · split at e <;> (injection e with e; subst e; exact other p1 _ hne)
    · cases e
  | look p1 =>
    simp only [step, doLook] at e
    split at e
    · rename_i hid
      have hne : p1 ≠ p := fun hh => by rw [hh, hw] at hid; cases hid
      split at e <;> (injection e with e; subst e; exact other p1 _ hne)
    · cases e
  | move => simp only [step, doMove] at e; split at e; (injection e with e; subst e; exact hw); cases e
  | evict => simp only [step, doEvict] at e; split at e; (injection e with e; subst e; exact hw); cases e
  | clear => simp only [step, doClear] at e; split at e; cases e; (injection e with e; subst e; exact hw)
  | restore => simp only [step, doRestore] at e; split at e; (injection e with e; subst e; exact hw); cases e
  | complete => simp only [step, doComplete] at e; split at e; (injection e with e; subst e; exact hw); cases e
  | punch => simp only [step, doPunch] at e; injection e with e; subst e; exact hw

/-- C107 fails: a transaction with as many items as the buffer has slots waits for ever,
whatever evictions and completions follow, in the middle of its commit; a buffer of the
default size (64 blocks of 68) is reached with 108751 subtransactions, one of the smallest
size (3 blocks) with 5051. -/
theorem C107_violated {α : Type} (cf : Cfg) (hcf : cf.Ok) (q q' : Q α) (h : Reach cf q) (p s : Nat) (it : List α)
    (hw : q.procs p = .wait s it) (hbig : cf.size ≤ it.length) (as : List (Act α)) (e : run cf q as = some q') :
    q'.procs p = .wait s it := by
  have hi := inv_reach hcf h
  clear h
  induction as generalizing q with
  | nil => injection e with e; subst e; exact hw
  | cons a as ih =>
    simp only [run, Option.bind_eq_some_iff] at e
    obtain ⟨q1, e1, e2⟩ := e
    exact ih q1 (proc_stays hi hw hbig e1) e2 (inv_step hcf hi e1)

theorem C107_violated_case :
    nitems 108751 = 64 * 68 ∧ nitems 5051 = 3 * 68 ∧
    ∀ t : Txn, t.subs.length = 5051 → ∀ stale, ∃ q, run (⟨204, 68⟩ : Cfg) Q.init [.reserve 0 (pack stale t)] = some q ∧
      q.procs 0 = .wait 0 (pack stale t) ∧ (204 : Nat) ≤ (pack stale t).length := by
  refine ⟨by decide, by decide, ?_⟩
  intro t ht stale
  have hl : (pack stale t).length = 204 := by rw [pack_length, ht]; decide
  have hne : pack stale t ≠ [] := by intro hh; rw [hh] at hl; cases hl
  have hst : run (⟨204, 68⟩ : Cfg) Q.init [.reserve 0 (pack stale t)] =
      some { (Q.init : Q Item) with ar := 0 + (pack stale t).length, log := [] ++ pack stale t
                                    procs := upd (fun _ => .idle) 0 (.wait 0 (pack stale t)) } := by
    simp only [run, step, doReserve, Q.init, if_neg hne, Option.bind_some]
  exact ⟨_, hst, by simp [upd], by omega⟩

/-! ## C108 -/

/-- The items of transactions, oldest first; each comes with what its slots contained
before. -/
def packs (l : List ((Nat → Nat → Nat) × Txn)) : List Item := l.flatMap (fun x => pack x.1 x.2)

theorem packs_rev (stop) (l : List ((Nat → Nat → Nat) × Txn)) (hok : ∀ x ∈ l, x.2.Ok) (out) (s : RwSt)
    (hf : Fresh out s) :
    ∃ s', (rwItems stop s (l.flatMap (fun x => (pack x.1 x.2).reverse)) = .go s' ∨
      rwItems stop s (l.flatMap (fun x => (pack x.1 x.2).reverse)) = .stop s') ∧
      s'.out = out ++ ((l.map Prod.snd).takeWhile (fun t => !stop t.oxid t.xid t.time)).map undoneOf ∧
      (rwItems stop s (l.flatMap (fun x => (pack x.1 x.2).reverse)) = .go s' → Fresh s'.out s') := by
  induction l generalizing out s with
  | nil => exact ⟨s, Or.inl (by simp [rwItems]), by simp [hf.2.2], fun _ => ⟨hf.1, hf.2.1, rfl⟩⟩
  | cons x l ih =>
    have hp := pack_read stop x.1 x.2 (hok x (List.mem_cons_self ..)) out s hf
    simp only [List.flatMap_cons, rwItems_append, List.map_cons]
    cases hs : stop x.2.oxid x.2.xid x.2.time with
    | true =>
      obtain ⟨s', e, ho⟩ := hp.1 hs
      exact ⟨s', Or.inr (by rw [e]), by simp [hs, ho], by rw [e]; intro hh; cases hh⟩
    | false =>
      obtain ⟨s', e, hf'⟩ := hp.2 hs
      obtain ⟨s2, e2, ho, hfr⟩ := ih (fun y hy => hok y (List.mem_cons_of_mem _ hy)) _ s' hf'
      rw [e]
      exact ⟨s2, e2, by simp [hs, ho], hfr⟩

theorem packs_reverse (l : List ((Nat → Nat → Nat) × Txn)) :
    (packs l).reverse = l.reverse.flatMap (fun x => (pack x.1 x.2).reverse) := by
  simp only [packs, List.reverse_flatMap]
  rfl

/-- C108.  A rewind undoes the transactions of the queue newest first, each once, each with
its own undo location and exactly its own subtransactions in their order, and goes on to
the first one its target stops it at.  `old` are the transactions the worker has completed,
`live` those still queued, oldest first; the slots may have contained anything before. -/
theorem C108_rewind (cf : Cfg) (hcf : cf.Ok) (q : Q Item) (h : Reach cf q)
    (old live : List ((Nat → Nat → Nat) × Txn)) (hok : ∀ x ∈ live, x.2.Ok)
    (hlog : q.log = packs (old ++ live)) (hc : q.c = (packs old).length)
    (hidle : ∀ i, q.procs i = .idle) (hl : q.lock = none) (stop : Option Nat → Option Nat → Nat → Bool) :
    (walkAll cf q).all Option.isSome = true ∧
    rewindOut stop ((walkAll cf q).filterMap id) =
      some (((live.map Prod.snd).reverse.takeWhile (fun t => !stop t.oxid t.xid t.time)).map undoneOf) := by
  have hi := inv_reach hcf h
  have haf := (C106_filled cf hcf q h).2 hidle
  have hw := walkAll_ok hi hl hcf.1
  have hlog' : (q.log.take q.af).drop q.c = packs live := by
    rw [haf, hi.arl, List.take_length, hlog, hc]
    simp [packs]
  rw [hlog'] at hw
  refine ⟨by rw [hw]; simp, ?_⟩
  have e : (walkAll cf q).filterMap id = (packs live).reverse := by
    rw [hw]; simp [List.filterMap_map]
  rw [e, packs_reverse]
  obtain ⟨s', e1, e2, _⟩ := packs_rev stop live.reverse (fun x hx => hok x (List.mem_reverse.1 hx)) [] {}
    ⟨rfl, rfl, rfl⟩
  unfold rewindOut
  rw [List.map_reverse, List.nil_append] at e2
  rcases e1 with e1 | e1 <;> rw [e1] <;> simp only [e2]

/-- An item with subtransactions. -/
def Item.isSub : Item → Bool
  | .subxids .. => true
  | _ => false

theorem fillSubs_isSub (o subs stale) : ∀ (m cnt : Nat) (arr), subs.length - cnt = m →
    ∀ i ∈ fillSubs o subs stale cnt arr, i.isSub = true := by
  intro m
  induction m using Nat.strongRecOn with
  | _ m ih =>
    intro cnt arr hm i hi
    rw [fillSubs_eq] at hi
    split at hi
    · rename_i hc
      simp only at hi
      split at hi
      · rw [List.mem_singleton.1 hi]; rfl
      · split at hi
        · rcases List.mem_cons.1 hi with hi | hi
          · rw [hi]; rfl
          · exact ih _ (by omega) (cnt + 1) _ rfl i hi
        · exact ih _ (by omega) (cnt + 1) _ rfl i hi
    · cases hi

theorem subs_out (stop) : ∀ (l : List Item), (∀ i ∈ l, i.isSub = true) → ∀ s,
    rwItems stop s l = .bad ∨ ∃ s', rwItems stop s l = .go s' ∧ s'.out = s.out := by
  intro l
  induction l with
  | nil => intro _ s; exact Or.inr ⟨s, rfl, rfl⟩
  | cons i l ih =>
    intro h s
    have hi := h i (List.mem_cons_self ..)
    cases i with
    | rewind => cases hi
    | subxids n o arr =>
      simp only [rwItems, rwItem]
      generalize hs1 : (if s.nsub = 0 then { s with nsub := n, cnt := n, subs := fun _ => 0 } else s) = s1
      have ho : s1.out = s.out := by rw [← hs1]; split <;> rfl
      cases gather arr s1.cnt s1.subs with
      | none => exact Or.inl rfl
      | some g =>
        simp only
        rcases ih (fun j hj => h j (List.mem_cons_of_mem _ hj))
          { s1 with cnt := g.1, subs := g.2, got := if g.1 = 0 then true else s1.got } with e | ⟨s', e, e2⟩
        · exact Or.inl e
        · exact Or.inr ⟨s', e, by rw [e2]; exact ho⟩

/-- What is left of the items of a transaction whose first items are completed is read
without effect. -/
theorem tail_read (stop stale) (t : Txn) (j : Nat) (hj : 0 < j) (out) (s : RwSt) (hf : Fresh out s) :
    ∃ s', rwItems stop s ((pack stale t).drop j).reverse = .go s' ∧ s'.out = out := by
  obtain ⟨f1, f2, f3⟩ := hf
  obtain ⟨i, rfl⟩ : ∃ i, j = i + 1 := ⟨j - 1, by omega⟩
  simp only [pack, List.drop_succ_cons]
  by_cases hn : t.subs.length = 0
  · simp only [hn, ne_eq, not_true_eq_false, if_false, List.drop_nil, List.reverse_nil]
    exact ⟨s, rfl, f3⟩
  · rw [if_pos hn]
    obtain ⟨s', e, g⟩ := fillSubs_read stop t.oxid t.subs stale s f1 f2 _ 0 (stale 0) rfl (by omega)
      (by intro k h1 h2; omega)
    have hsub := fillSubs_isSub t.oxid t.subs stale _ 0 (stale 0) rfl
    generalize hl : fillSubs t.oxid t.subs stale 0 (stale 0) = l at e hsub
    rcases subs_out stop (l.drop i).reverse
        (fun x hx => hsub x (List.mem_of_mem_drop (List.mem_reverse.1 hx))) s with e1 | ⟨s1, e1, e2⟩
    · have h : l.reverse = (l.drop i).reverse ++ (l.take i).reverse := by
        rw [← List.reverse_append, List.take_append_drop]
      rw [h, rwItems_append, e1] at e
      cases e
    · exact ⟨s1, e1, by rw [e2, f3]⟩

/-- C108, when the worker has stopped in the middle of the items of a transaction: this
transaction counts as completed, what is left of its items has no effect. -/
theorem C108_rewind_midway (cf : Cfg) (hcf : cf.Ok) (q : Q Item) (h : Reach cf q)
    (old live : List ((Nat → Nat → Nat) × Txn)) (stale : Nat → Nat → Nat) (t : Txn) (hok : ∀ x ∈ live, x.2.Ok)
    (hlog : q.log = packs old ++ pack stale t ++ packs live)
    (hc : (packs old).length < q.c) (hc2 : q.c ≤ (packs old).length + (pack stale t).length)
    (hidle : ∀ i, q.procs i = .idle) (hl : q.lock = none) (stop : Option Nat → Option Nat → Nat → Bool) :
    (walkAll cf q).all Option.isSome = true ∧
    rewindOut stop ((walkAll cf q).filterMap id) =
      some (((live.map Prod.snd).reverse.takeWhile (fun t => !stop t.oxid t.xid t.time)).map undoneOf) := by
  have hi := inv_reach hcf h
  have haf := (C106_filled cf hcf q h).2 hidle
  have hw := walkAll_ok hi hl hcf.1
  obtain ⟨j, hj⟩ : ∃ j, q.c = (packs old).length + j := ⟨q.c - (packs old).length, by omega⟩
  have hlog' : (q.log.take q.af).drop q.c = (pack stale t).drop j ++ packs live := by
    rw [haf, hi.arl, List.take_length, hlog, hj, List.append_assoc, List.drop_append, List.drop_of_length_le (by omega),
      List.nil_append, show (packs old).length + j - (packs old).length = j by omega,
      List.drop_append_of_le_length (by omega)]
  rw [hlog'] at hw
  have hsome : ∀ l : List Item, (l.map some).all Option.isSome = true ∧ (l.map some).filterMap id = l := by
    intro l; simp [List.filterMap_map]
  refine ⟨by rw [hw]; exact (hsome _).1, ?_⟩
  have e : (walkAll cf q).filterMap id = (packs live).reverse ++ ((pack stale t).drop j).reverse := by
    rw [hw, (hsome _).2, List.reverse_append]
  rw [e, packs_reverse]
  obtain ⟨s', e1, e2, e3⟩ := packs_rev stop live.reverse (fun x hx => hok x (List.mem_reverse.1 hx)) [] {}
    ⟨rfl, rfl, rfl⟩
  rw [List.map_reverse, List.nil_append] at e2
  unfold rewindOut
  rw [rwItems_append]
  rcases e1 with e1 | e1 <;> rw [e1]
  · obtain ⟨s2, e4, e5⟩ := tail_read stop stale t j (by omega) s'.out s' (e3 e1)
    simp only [e4, e5, e2]
  · simp only [e2]

/-- A transaction with 26 subtransactions between two plain ones. -/
def big : Txn := ⟨some 11, some 701, List.range' 800 26, 20, 300, 0⟩
def t1 : Txn := ⟨some 10, none, [], 10, 100, 0⟩
def t3 : Txn := ⟨none, some 702, [], 30, 0, 0⟩

/-- Three transactions are added to buffers of the smallest size and part of the items is
moved on; a rewind of everything. -/
def three : List (Act Item) :=
  [.reserve 0 (pack (fun _ _ => 5) t1), .admit 0, .put 0, .tryCas 0, .look 0,
   .reserve 1 (pack (fun _ _ => 6) big), .admit 1, .put 1, .put 1, .put 1, .tryCas 1, .look 1, .tryCas 1, .look 1,
   .tryCas 1, .look 1, .reserve 0 (pack (fun _ _ => 7) t3), .admit 0, .put 0, .tryCas 0, .look 0, .move, .move]

theorem run_append {α : Type} {cf : Cfg} : ∀ (as bs : List (Act α)) (q : Q α),
    run cf q (as ++ bs) = (run cf q as).bind (fun q' => run cf q' bs) := by
  intro as
  induction as with
  | nil => intro bs q; rfl
  | cons a as ih =>
    intro bs q
    simp only [List.cons_append, run]
    cases step cf q a with
    | none => rfl
    | some q1 => simp only [Option.bind_some]; exact ih bs q1

theorem C108_case : ∃ q, run (⟨204, 68⟩ : Cfg) Q.init three = some q ∧ q.c = 0 ∧ q.lock = none ∧ q.ar = 5 ∧
    q.e = 2 ∧ (∀ i, i < 2 → match q.procs i with | .idle => True | _ => False) ∧
    rewindOut (fun _ _ _ => false) ((walkAll (⟨204, 68⟩ : Cfg) q).filterMap id) =
      some [⟨none, some (702, [])⟩, ⟨some (11, 300), some (701, List.range' 800 26)⟩, ⟨some (10, 100), none⟩] := by
  obtain ⟨q, e, hp⟩ := any_run (x := run (⟨204, 68⟩ : Cfg) Q.init three)
    (p := fun q => decide (q.c = 0) && decide (q.lock = none) && decide (q.ar = 5) && decide (q.e = 2) &&
      (match q.procs 0 with | .idle => true | _ => false) && (match q.procs 1 with | .idle => true | _ => false) &&
      decide (rewindOut (fun _ _ _ => false) ((walkAll (⟨204, 68⟩ : Cfg) q).filterMap id) =
      some [⟨none, some (702, [])⟩, ⟨some (11, 300), some (701, List.range' 800 26)⟩, ⟨some (10, 100), none⟩]))
    (by decide +kernel)
  simp only [Bool.and_eq_true, decide_eq_true_eq] at hp
  obtain ⟨⟨⟨⟨⟨⟨h1, h2⟩, h3⟩, h4⟩, h5⟩, h6⟩, h7⟩ := hp
  refine ⟨q, e, h1, h2, h3, h4, ?_, h7⟩
  intro i hi
  have : i = 0 ∨ i = 1 := by omega
  rcases this with rfl | rfl
  · split at h5 <;> simp_all
  · split at h6 <;> simp_all

/-- The hypotheses of `C108_rewind` in a state where the first of two transactions is
completed. -/
theorem C108_hyps_case : ∃ q : Q Item, Reach (⟨204, 68⟩ : Cfg) q ∧
    q.log = packs ([(fun _ _ => 5, t1)] ++ [(fun _ _ => 7, t3)]) ∧ q.c = (packs [(fun _ _ => 5, t1)]).length ∧
    (∀ i, q.procs i = .idle) ∧ q.lock = none := by
  have e : ∃ q : Q Item, run (⟨204, 68⟩ : Cfg) Q.init (addOne 0 (.rewind t1.oxid t1.xid 0 t1.time t1.undo t1.retain) ++
      [.move, .complete] ++ addOne 1 (.rewind t3.oxid t3.xid 0 t3.time t3.undo t3.retain)) = some q ∧
      q.log = [.rewind t1.oxid t1.xid 0 t1.time t1.undo t1.retain, .rewind t3.oxid t3.xid 0 t3.time t3.undo t3.retain] ∧
      q.c = 1 ∧ (∀ i, q.procs i = .idle) ∧ q.lock = none := by
    refine ⟨_, rfl, rfl, rfl, ?_, rfl⟩
    intro i
    simp only [upd]
    split <;> (try rfl)
    split <;> (try rfl)
    repeat' (split <;> (try rfl))
  obtain ⟨q, e, h1, h2, h3, h4⟩ := e
  exact ⟨q, ⟨_, e⟩, by rw [h1]; rfl, by rw [h2]; rfl, h3, h4⟩

/-- The worker has completed the first of the three items of `big`, in whose place nothing
is undone any more. -/
theorem C108_midway_case : ∃ q, run (⟨204, 68⟩ : Cfg) Q.init (three ++ [.complete, .complete]) = some q ∧ q.c = 2 ∧
    q.lock = none ∧
    rewindOut (fun _ _ _ => false) ((walkAll (⟨204, 68⟩ : Cfg) q).filterMap id) = some [⟨none, some (702, [])⟩] := by
  obtain ⟨q, e, hp⟩ := any_run (x := run (⟨204, 68⟩ : Cfg) Q.init (three ++ [.complete, .complete]))
    (p := fun q => decide (q.c = 2) && decide (q.lock = none) &&
      decide (rewindOut (fun _ _ _ => false) ((walkAll (⟨204, 68⟩ : Cfg) q).filterMap id) =
        some [⟨none, some (702, [])⟩])) (by decide +kernel)
  simp only [Bool.and_eq_true, decide_eq_true_eq] at hp
  exact ⟨q, e, hp.1.1, hp.1.2, hp.2⟩

/-! ## C109 -/

theorem takeWhile_filter {β : Type} (p : β → Bool) : ∀ (l : List β),
    l.Pairwise (fun a b => p b = true → p a = true) → l.takeWhile p = l.filter p := by
  intro l
  induction l with
  | nil => intro _; rfl
  | cons a l ih =>
    intro h
    rw [List.pairwise_cons] at h
    cases ha : p a with
    | true => rw [List.takeWhile_cons_of_pos ha, List.filter_cons_of_pos ha, ih h.2]
    | false =>
      rw [List.takeWhile_cons_of_neg (by simp [ha]), List.filter_cons_of_neg (by simp [ha])]
      symm
      rw [List.filter_eq_nil_iff]
      intro b hb hp
      rw [h.1 b hb hp] at ha
      cases ha

/-- C109, part.  If times do not decrease along the queue, a rewind to a time undoes
exactly the transactions stamped at or after it, newest first, and a rewind by a number of
seconds exactly those less than that long ago; if all transactions have an
`oxid` and these do not decrease along the queue, a rewind to an `oxid` undoes exactly those
not before it.  Missing: queues in another order, where `C109_violated` shows that it is not
so; queues that mix both kinds of ids. -/
theorem C109_partial (live : List ((Nat → Nat → Nat) × Txn)) (hok : ∀ x ∈ live, x.2.Ok) :
    (∀ ts, (live.map Prod.snd).Pairwise (fun a b => a.time ≤ b.time) →
      rewindOut (stopAt (.stamp ts)) (packs live).reverse =
        some (((live.map Prod.snd).filter (fun t => decide (ts ≤ t.time))).reverse.map undoneOf)) ∧
    (∀ ro, (live.map Prod.snd).Pairwise (fun a b => ∀ x y, a.oxid = some x → b.oxid = some y → x ≤ y) →
      (∀ t ∈ live.map Prod.snd, t.oxid.isSome = true) →
      rewindOut (stopAt (.ids none (some ro))) (packs live).reverse =
        some (((live.map Prod.snd).filter (fun t => t.oxid.any (fun o => decide (ro ≤ o)))).reverse.map undoneOf)) ∧
    (∀ start secs, (live.map Prod.snd).Pairwise (fun a b => a.time ≤ b.time) →
      rewindOut (stopAt (.time start secs)) (packs live).reverse =
        some (((live.map Prod.snd).filter (fun t => decide (start < t.time + secs * 1000000))).reverse.map undoneOf)) := by
  have main : ∀ stop, rewindOut stop (packs live).reverse =
      some (((live.map Prod.snd).reverse.takeWhile (fun t => !stop t.oxid t.xid t.time)).map undoneOf) := by
    intro stop
    rw [packs_reverse]
    obtain ⟨s', e1, e2, _⟩ := packs_rev stop live.reverse (fun x hx => hok x (List.mem_reverse.1 hx)) [] {}
      ⟨rfl, rfl, rfl⟩
    unfold rewindOut
    rw [List.map_reverse, List.nil_append] at e2
    rcases e1 with e1 | e1 <;> rw [e1] <;> simp only [e2]
  refine ⟨?_, ?_, ?_⟩
  · intro ts hs
    rw [main, takeWhile_filter, List.filter_reverse]
    · congr 4
      funext t
      simp only [stopAt]
      by_cases hh : ts ≤ t.time
      · simp [hh]
      · simp [hh]; omega
    · rw [List.pairwise_reverse]
      refine hs.imp ?_
      intro a b hab
      simp only [stopAt, Bool.not_eq_true', decide_eq_false_iff_not]
      omega
  · intro ro hs hsome
    rw [main, takeWhile_filter, List.filter_reverse]
    · congr 3
      apply List.filter_congr
      intro t ht
      obtain ⟨o, ho⟩ := Option.isSome_iff_exists.1 (hsome t ht)
      simp only [stopAt, ho, Bool.false_or, Option.any_some]
      by_cases hh : ro ≤ o
      · simp [hh]
      · simp [hh]; omega
    · rw [List.pairwise_reverse]
      refine hs.imp_of_mem ?_
      intro a b ha hb hab
      obtain ⟨x, hx⟩ := Option.isSome_iff_exists.1 (hsome a ha)
      obtain ⟨y, hy⟩ := Option.isSome_iff_exists.1 (hsome b hb)
      have := hab x y hx hy
      simp only [stopAt, hx, hy, Bool.false_or, Bool.not_eq_true', decide_eq_false_iff_not]
      omega
  · intro start secs hs
    rw [main, takeWhile_filter, List.filter_reverse]
    · congr 4
      funext t
      simp only [stopAt]
      by_cases hh : start < t.time + secs * 1000000
      · simp [hh]
      · simp [hh]; omega
    · rw [List.pairwise_reverse]
      refine hs.imp ?_
      intro a b hab
      simp only [stopAt, Bool.not_eq_true', decide_eq_false_iff_not]
      omega

theorem C109_partial_case : t1.Ok ∧ big.Ok ∧ [t1, big].Pairwise (fun a b => a.time ≤ b.time) ∧
    rewindOut (stopAt (.stamp 15)) (packs [(fun _ _ => 0, t1), (fun _ _ => 0, big)]).reverse = some [undoneOf big] ∧
    rewindOut (stopAt (.ids none (some 11))) (packs [(fun _ _ => 0, t1), (fun _ _ => 0, big)]).reverse =
      some [undoneOf big] ∧
    rewindOut (stopAt (.time 2500000 2)) (packs [(fun _ _ => 0, { t1 with time := 0 }),
      (fun _ _ => 0, { big with time := big.time + 1000000 })]).reverse = some [undoneOf big] := by
  refine ⟨fun h => absurd rfl h, fun _ h => (by cases h), by decide, ?_, ?_, ?_⟩ <;> decide +kernel

/-- C109 fails: two transactions queued in the opposite order of their ids.  A rewind to
transaction 11 stops at transaction 10, which is the newer entry, and undoes nothing,
though transaction 11 is in the queue.  The same with times, which are taken after the
place in the queue was reserved. -/
theorem C109_violated :
    let a : Txn := ⟨some 11, none, [], 21, 100, 0⟩
    let b : Txn := ⟨some 10, none, [], 20, 200, 0⟩
    rewindOut (stopAt (.ids none (some 11))) (packs [(fun _ _ => 0, a), (fun _ _ => 0, b)]).reverse = some [] ∧
    rewindOut (stopAt (.stamp 21)) (packs [(fun _ _ => 0, a), (fun _ _ => 0, b)]).reverse = some [] ∧
    stopAt (.ids none (some 11)) a.oxid a.xid a.time = false ∧ stopAt (.stamp 21) a.oxid a.xid a.time = false := by
  refine ⟨?_, ?_, ?_, ?_⟩ <;> decide +kernel

/-! ## C110 -/

/-- An item that is not stopped at because of its `oxid`. -/
def Item.noOxid : Item → Bool
  | .rewind o _ _ _ _ _ => o.isNone
  | .subxids .. => true

/-- An item that is not stopped at because of its `xid`. -/
def Item.noXid : Item → Bool
  | .rewind _ x _ _ _ _ => x.isNone
  | .subxids .. => true

theorem rewindOut_congr {st st' : Option Nat → Option Nat → Nat → Bool} (is : List Item)
    (h : ∀ i ∈ is, ∀ s, rwItem st s i = rwItem st' s i) : rewindOut st is = rewindOut st' is := by
  have : ∀ (is : List Item) s, (∀ i ∈ is, ∀ s, rwItem st s i = rwItem st' s i) → rwItems st s is = rwItems st' s is := by
    intro is
    induction is with
    | nil => intro s _; rfl
    | cons i is ih =>
      intro s h
      simp only [rwItems]
      rw [h i (List.mem_cons_self ..) s]
      cases rwItem st' s i with
      | go s' => exact ih s' (fun j hj => h j (List.mem_cons_of_mem _ hj))
      | stop s' => rfl
      | bad => rfl
  unfold rewindOut
  rw [this is _ h]

/-- C110, part.  After the warning "Rewind will be based only on rewind XID" the result is
the one for the `xid` alone, if no transaction of the queue has an `oxid`; after "only on
rewind OXid" the one for the `oxid` alone, if none has an `xid`.
Missing: every other queue, where `C110_violated` shows that it is not so. -/
theorem C110_partial (top oldest complete : Nat) (finished : Nat → Bool) (rx ro : Option Nat) (items : List Item)
    (onlyO onlyX : Bool) (r : Option (List Undone))
    (h : rewindIds top oldest complete finished rx ro items = (.go onlyO onlyX, r)) :
    (onlyX = true → items.all Item.noOxid = true → r = rewindOut (stopAt (.ids rx none)) items) ∧
    (onlyO = true → items.all Item.noXid = true → r = rewindOut (stopAt (.ids none ro)) items) := by
  have hr : r = rewindOut (stopAt (.ids rx ro)) items := by
    unfold rewindIds at h
    split at h
    · cases h
    · simp only [Prod.mk.injEq] at h; exact h.2.symm
  subst hr
  constructor
  · intro _ hall
    apply rewindOut_congr
    intro i hi s
    have := List.all_eq_true.1 hall i hi
    cases i with
    | subxids => rfl
    | rewind o x n t u v =>
      simp only [Item.noOxid, Option.isNone_iff_eq_none] at this
      subst this
      cases rx <;> cases ro <;> cases x <;> simp [rwItem, stopAt]
  · intro _ hall
    apply rewindOut_congr
    intro i hi s
    have := List.all_eq_true.1 hall i hi
    cases i with
    | subxids => rfl
    | rewind o x n t u v =>
      simp only [Item.noXid, Option.isNone_iff_eq_none] at this
      subst this
      cases rx <;> cases ro <;> cases o <;> simp [rwItem, stopAt]

/-- A queue with one transaction without `oxid`; the `oxid` asked for is in the future. -/
theorem C110_partial_case :
    rewindIds 900 100 5 (fun o => o < 50) (some 702) (some 999) (pack (fun _ _ => 0) t3).reverse =
      (.go false true, some [undoneOf t3]) ∧ ((pack (fun _ _ => 0) t3).reverse).all Item.noOxid = true := by
  constructor <;> decide +kernel

/-- C110 fails: the warning says that only the `xid` counts, transaction 701 is to be
undone, but the future `oxid` still takes part in the test and every orioledb transaction
lies before it: nothing is undone. -/
theorem C110_violated :
    rewindIds 900 100 5 (fun o => o < 50) (some 701) (some 999) (pack (fun _ _ => 0) big).reverse =
      (.go false true, some []) ∧
    rewindOut (stopAt (.ids (some 701) none)) (pack (fun _ _ => 0) big).reverse = some [undoneOf big] := by
  constructor <;> decide +kernel

/-! ## C111 -/

/-- C111, part.  A transaction that was in the queue before another committed comes before
it in the queue.  Missing: transactions that commit at the same time, for which
`C111_violated` shows the opposite order. -/
theorem C111_partial (as bs : List OrdAct) (s1 s2 : Ord) (h1 : ordRun ⟨[], []⟩ as = some s1)
    (h2 : ordRun s1 bs = some s2) (i j : Nat) (hi : i ∈ s1.queued) (hj : j ∉ s1.committed) (hj2 : j ∈ s2.queued) :
    ∃ a b, s2.queued = a ++ b ∧ i ∈ a ∧ j ∉ a ∧ j ∈ b := by
  obtain ⟨l, hl⟩ := ordRun_prefix bs s1 s2 h2
  have hsub := ordRun_sub as ⟨[], []⟩ s1 (by simp) h1
  refine ⟨s1.queued, l, hl, hi, fun hh => hj (hsub j hh), ?_⟩
  rw [hl] at hj2
  rcases List.mem_append.1 hj2 with hh | hh
  · exact absurd (hsub j hh) hj
  · exact hh

theorem C111_partial_case : ∃ s1 s2, ordRun ⟨[], []⟩ [.commit 1, .commit 3, .enqueue 1] = some s1 ∧
    ordRun s1 [.commit 2, .enqueue 2, .enqueue 3] = some s2 ∧ 1 ∈ s1.queued ∧ 2 ∉ s1.committed ∧ 2 ∈ s2.queued := by
  refine ⟨⟨[1, 3], [1]⟩, ⟨[1, 3, 2], [1, 2, 3]⟩, ?_, ?_, ?_, ?_, ?_⟩ <;> decide +kernel

/-- C111 fails: transaction 1 commits before transaction 2 and is queued after it, so that
a rewind undoes 1 and keeps 2, or undoes 2 after 1. -/
theorem C111_violated :
    ordRun ⟨[], []⟩ [.commit 1, .commit 2, .enqueue 2, .enqueue 1] = some ⟨[1, 2], [2, 1]⟩ := by decide +kernel

/-! ## C112 -/

/-- C112, part.  A checkpoint that finds `checkpointPos` not beyond `completePos` (as the
first one after a start does), during which only committing backends are active, writes
the items from `completePos` on in their order, at least up to those filled when it began.
Missing: later checkpoints and an active worker, for which `C112_violated` and
`C112_violated_race` show that items are left out; and positions of 2^31 or more, which do not fit
the offset the block of the file is read from. -/
theorem C112_partial {α : Type} (cf : Cfg) (hcf : cf.Ok) (q q' : Q α) (k k' : Ck α) (as : List (CkAct α))
    (h : Reach cf q) (hl : q.lock = none) (hk : k.phase = 0) (hp : k.pos ≤ q.c) (hbig : q.e < 2 ^ 31)
    (hm : ∀ a ∈ as, a.mild = true)
    (hone : ∀ pre post, as = pre ++ .ck :: post → ∀ s, ckRun cf (q, ckStep cf q k) pre = some s → s.2.phase ≠ 0)
    (e : ckRun cf (q, k) (.ck :: as) = some (q', k')) (hend : k'.phase = 0) :
    ∃ p, q.af ≤ p ∧ p ≤ q'.af ∧ k'.written = (q'.log.take p).drop q.c := by
  have hi := inv_reach hcf h
  have h1 := hi.cr; have h2 := hi.re; have h3 := hi.eaf
  have hst : ckStep cf q k = { pos := max q.c k.pos, phase := 1, buf := none, written := [] } := by
    simp only [ckStep, hk]
  have hmx : max q.c k.pos = q.c := by omega
  rw [hmx] at hst
  have hinv : CkInv cf q.c q (ckStep cf q k) := by
    rw [hst]
    exact { inv := hi, lock := hl, cb := Nat.le_refl _, bp := Nat.le_refl _, paf := by simp only; omega
            wr := by simp, ph2 := by simp, ph3 := by simp, bf := by simp, b1 := by simp }
  simp only [ckRun] at e
  obtain ⟨r1, r2, r3⟩ := ckRun_ok hcf (a0 := q.af) as q _ q' k' hinv (by rw [hst]; simp) (Nat.le_refl _) hbig hm
    hone e
  exact ⟨k'.pos, r2 hend, r1.paf, r1.wr⟩

/-- A queue with one item in the complete buffer and two in the add buffer; a whole
checkpoint with a backend that adds another in the middle. -/
def ckHist : List (Act Nat) := addOne 0 10 ++ [.move] ++ addOne 0 11 ++ addOne 1 12
def ckActs : List (CkAct Nat) := [.ck, .ck, .act (.reserve 0 [13]), .ck, .ck, .ck, .ck]

theorem C112_partial_case : ∃ q s, run small Q.init ckHist = some q ∧ q.lock = none ∧ q.c = 0 ∧ q.af = 3 ∧
    ckRun small (q, ({} : Ck Nat)) (.ck :: ckActs) = some s ∧
    s.2.phase = 0 ∧ s.2.written = [10, 11, 12] ∧ s.2.pos = 3 := by
  obtain ⟨q, e, hp⟩ := any_run (x := run small Q.init ckHist)
    (p := fun q => decide (q.lock = none) && decide (q.c = 0) && decide (q.af = 3) &&
      (ckRun small (q, ({} : Ck Nat)) (.ck :: ckActs)).any
        (fun (s : Q Nat × Ck Nat) => decide (s.2.phase = 0) && decide (s.2.written = [10, 11, 12]) &&
          decide (s.2.pos = 3)))
    (by decide +kernel)
  simp only [Bool.and_eq_true, decide_eq_true_eq] at hp
  obtain ⟨⟨⟨h1, h2⟩, h3⟩, h5⟩ := hp
  obtain ⟨s, e2, hs⟩ := any_run h5
  simp only [Bool.and_eq_true, decide_eq_true_eq] at hs
  exact ⟨q, s, e, h1, h2, h3, e2, hs.1.1, hs.1.2, hs.2⟩

/-- One whole checkpoint of a queue with one item in the add buffer. -/
def ckOne : List (CkAct Nat) := [.ck, .ck, .ck, .ck, .ck]

/-- C112 fails: `checkpointPos` is kept from one checkpoint to the next, so that the second
checkpoint writes nothing although the only item was not completed in between. -/
theorem C112_violated : ∃ s1 s2, ckRun small (Q.init, ({} : Ck Nat)) ((addOne 0 7).map .act ++ ckOne) = some s1 ∧
    s1.2.phase = 0 ∧ s1.2.written = [7] ∧
    ckRun small s1 [.ck, .ck, .ck, .ck] = some s2 ∧ s2.2.phase = 0 ∧ s2.2.written = [] ∧
    s2.1.c = 0 ∧ s2.1.af = 1 ∧ s2.1.log = [7] := by
  obtain ⟨s1, e, hp⟩ := any_run (x := ckRun small (Q.init, ({} : Ck Nat)) ((addOne 0 7).map .act ++ ckOne))
    (p := fun (s1 : Q Nat × Ck Nat) => decide (s1.2.phase = 0) && decide (s1.2.written = [7]) &&
      (ckRun small s1 [.ck, .ck, .ck, .ck]).any (fun (s2 : Q Nat × Ck Nat) => decide (s2.2.phase = 0) && decide (s2.2.written = []) &&
        decide (s2.1.c = 0) && decide (s2.1.af = 1) && decide (s2.1.log = [7]))) (by decide +kernel)
  simp only [Bool.and_eq_true, decide_eq_true_eq] at hp
  obtain ⟨⟨h1, h2⟩, h3⟩ := hp
  obtain ⟨s2, e2, hs⟩ := any_run h3
  simp only [Bool.and_eq_true, decide_eq_true_eq] at hs
  exact ⟨s1, s2, e, h1, h2, e2, hs.1.1.1.1, hs.1.1.1.2, hs.1.1.2, hs.1.2, hs.2⟩

/-- C112 fails already for the first checkpoint if the worker moves the item from the add
buffer to the complete buffer when the checkpoint is past the latter. -/
theorem C112_violated_race : ∃ s, ckRun small (Q.init, ({} : Ck Nat))
      ((addOne 0 7).map .act ++ [.ck, .ck, .ck, .act .move, .ck, .ck]) = some s ∧
    s.2.phase = 0 ∧ s.2.written = [] ∧ s.1.c = 0 ∧ s.1.af = 1 ∧ s.1.log = [7] := by
  obtain ⟨s, e, hp⟩ := any_run (x := ckRun small (Q.init, ({} : Ck Nat))
      ((addOne 0 7).map .act ++ [.ck, .ck, .ck, .act .move, .ck, .ck]))
    (p := fun s => decide (s.2.phase = 0) && decide (s.2.written = []) && decide (s.1.c = 0) && decide (s.1.af = 1) &&
      decide (s.1.log = [7])) (by decide +kernel)
  simp only [Bool.and_eq_true, decide_eq_true_eq] at hp
  exact ⟨s, e, hp.1.1.1.1, hp.1.1.1.2, hp.1.1.2, hp.1.2, hp.2⟩

/-! ## C113 -/

/-- C113, part.  If entries are filled in the order of the queue, the undo of every
transaction that is in the queue and not completed lies at or above the location below
which undo is discarded.  Missing: fillings in another order, where `C113_violated` shows
that undo of a queued transaction is given up. -/
theorem C113_partial (as : List RetAct) (s : Ret) (ho : runInOrder Ret.init as) (e : retRun Ret.init as = some s) :
    ∀ x ∈ s.queue.drop s.done, s.bound ≤ x.undo := by
  have h := rinv_run as _ s rinv_init ho e
  intro x hx
  have hm := List.mem_of_mem_drop hx
  cases hr : x.retain with
  | none => have := (h.unf x hm hr).1; have := h.bm; omega
  | some v => have := h.dn x hx v hr; have := (h.rec_ x hm v hr).2; omega

/-- `runInOrder`, computed. -/
def runInOrderB : Ret → List RetAct → Bool
  | _, [] => true
  | s, a :: as => fillsInOrder s a && (match retStep s a with | some s' => runInOrderB s' as | none => true)

theorem runInOrder_of : ∀ (as : List RetAct) (s : Ret), runInOrderB s as = true → runInOrder s as := by
  intro as
  induction as with
  | nil => intro s _; trivial
  | cons a as ih =>
    intro s h
    simp only [runInOrderB, Bool.and_eq_true] at h
    refine ⟨h.1, fun s' e => ?_⟩
    have h2 := h.2
    rw [e] at h2
    exact ih s' h2

def retHist : List RetAct :=
  [.begin 1 200, .begin 2 150, .reserve 1, .fill 1, .finish 1, .update, .reserve 2, .fill 2, .finish 2, .update,
   .begin 3 10, .complete]

theorem C113_partial_case : runInOrder Ret.init retHist ∧
    ∃ s, retRun Ret.init retHist = some s ∧ s.queue.drop s.done = [⟨2, 200, some 200⟩] ∧ s.minProc = 350 := by
  refine ⟨runInOrder_of _ _ (by decide +kernel), ?_⟩
  obtain ⟨s, e, hp⟩ := any_run (x := retRun Ret.init retHist)
    (p := fun s => decide (s.queue.drop s.done = [⟨2, 200, some 200⟩]) && decide (s.minProc = 350)) (by decide +kernel)
  simp only [Bool.and_eq_true, decide_eq_true_eq] at hp
  exact ⟨s, e, hp⟩

/-- C113 fails: transaction 1 reserves its place before transaction 2 but is filled after
transaction 2 has gone, with a location beyond the undo of transaction 2.  When the worker
completes transaction 1, the undo of transaction 2, which is still queued, may be
discarded. -/
theorem C113_violated : ∃ s, retRun Ret.init
      [.begin 2 150, .begin 1 10, .reserve 1, .reserve 2, .fill 2, .finish 2, .update, .fill 1, .finish 1, .complete]
        = some s ∧
    s.queue.drop s.done = [⟨2, 0, some 0⟩] ∧ s.bound = 150 := by
  obtain ⟨s, e, hp⟩ := any_run (x := retRun Ret.init
      [.begin 2 150, .begin 1 10, .reserve 1, .reserve 2, .fill 2, .finish 2, .update, .fill 1, .finish 1, .complete])
    (p := fun s => decide (s.queue.drop s.done = [⟨2, 0, some 0⟩]) && decide (s.bound = 150)) (by decide +kernel)
  simp only [Bool.and_eq_true, decide_eq_true_eq] at hp
  exact ⟨s, e, hp⟩

/-! ## C114 -/

/-- C114, part.  If the queue is not empty and the worker sleeps or is at the head of its
loop when it is asked to stop, its next steps stop it.  Missing: an empty queue and a
worker that is inside the restoring of a page, where `C114_violated` and
`C114_violated_lock` show that the rewind waits in vain. -/
theorem C114_partial (s : Hs) (hn : 0 < s.n) (hp : s.pc = .sleep ∨ s.pc = .head) (hr : s.req = true) (b b' : Bool) :
    ∃ s', (hsRun s [.worker b] = some s' ∨ hsRun s [.worker b', .worker b] = some s') ∧
      s'.ack = true ∧ s'.pc = .stopped := by
  have h0 : s.n ≠ 0 := by omega
  rcases hp with hp | hp
  · refine ⟨{ s with pc := .stopped, ack := true }, Or.inr ?_, rfl, rfl⟩
    simp [hsRun, hsStep, hp, h0, hr]
  · refine ⟨{ s with pc := .stopped, ack := true }, Or.inl ?_, rfl, rfl⟩
    simp [hsRun, hsStep, hp, h0, hr]

theorem C114_partial_case : ∃ s, hsRun ⟨.head, 0, false, false, false⟩ [.worker false, .commit, .lock, .ask] = some s ∧
    0 < s.n ∧ s.pc = .sleep ∧ s.req = true ∧ s.locked = true := by
  refine ⟨⟨.sleep, 1, true, true, false⟩, ?_⟩; decide +kernel

/-- C114 fails: with an empty queue the worker never looks at the request; without further
commits it does not stop, and the rewind ends with a fatal error. -/
theorem C114_violated : ∃ s, hsRun ⟨.head, 0, false, false, false⟩ [.worker false, .lock, .ask] = some s ∧
    s.req = true ∧ ∀ as s', (∀ a ∈ as, a.quiet = true) → hsRun s as = some s' → s'.ack = false := by
  refine ⟨⟨.sleep, 0, true, true, false⟩, by decide +kernel, rfl, ?_⟩
  intro as s' hq e
  exact hs_empty as _ s' rfl (Or.inl rfl) rfl hq e

/-- C114 fails: the worker waits for the lock in order to restore a page, the rewinding
backend holds that lock and waits for the worker: neither goes on, whatever else happens. -/
theorem C114_violated_lock : ∃ s, hsRun ⟨.sleep, 1, false, false, false⟩ [.worker false, .worker true, .lock, .ask] = some s ∧
    s.req = true ∧ ∀ as s', hsRun s as = some s' → s'.ack = false := by
  refine ⟨⟨.restore1, 1, true, true, false⟩, by decide +kernel, rfl, ?_⟩
  intro as s' e
  exact (hs_stuck as _ s' (Or.inl rfl) rfl rfl e).2.2

end Verif.Rewind
