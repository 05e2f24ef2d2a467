import Verif.PageSplit.Calm
import Verif.PageSplit.BuildEnd

/-!
# Room on B-tree pages: properties C59 - C64

`Lev` is the leaf level of an index (`LevelModel.lean`), `Lev.run` a run of operations of
transactions on it; `StepSpec` (`LevelSpec.lean`) says what an operation should do to the rows.
-/

namespace Verif.PageSplit

/-! ## Cases -/

/-- Decisions: half and half, one chunk per page. -/
def exOrc : Orc := ⟨fun l r => decide (l ≥ r), 0, fun _ => false, fun _ => false, 8192, none, 0⟩

def exPut (x k len klen : Nat) : Op := .put exOrc x ⟨k, len, klen, k⟩ [] [] none

/-- The same, when transactions `l` are known to be finished. -/
def exPutAfter (x k len klen : Nat) (l : List Nat) : Op := .put exOrc x ⟨k, len, klen, k⟩ l [] none

/-- Inserts, an update, a compaction, splits, waiters, a delete, a lock, an undo and a merge. -/
def exOps : List Op :=
  [exPut 1 10 2600 8, exPut 1 20 2600 8, .finish 1, exPut 2 10 100 8, .finish 2,
   exPutAfter 3 30 2600 8 [1, 2], exPutAfter 3 40 2000 8 [1, 2], exPutAfter 3 50 1500 8 [1, 2],
   .putAll exOrc (fun l r => decide (l ≥ r)) 4 ⟨25, 800, 8, 25⟩
     [(7, 5, ⟨26, 700, 8, 26⟩), (8, 6, ⟨45, 700, 8, 45⟩)] [1, 2] none,
   .del 4 20, .finish 4, .lock 5 10, .unlock 5 10, .undo 3 40, .undo 3 30, .undo 3 50,
   .merge exOrc 8192 0 [1, 2, 4] [] none]

theorem exOps_ok : ∀ op ∈ exOps, OpOk (fun _ => 8) op := by
  have h : ∀ t : Tup, t.len ≤ maxTup → t.klen = 8 → TupOk (fun _ => 8) t :=
    fun t h1 h2 => ⟨h1, by rw [h2]; decide, h2⟩
  intro op hop
  simp only [exOps, List.mem_cons, List.not_mem_nil, or_false] at hop
  rcases hop with rfl | rfl | rfl | rfl | rfl | rfl | rfl | rfl | rfl | rfl | rfl | rfl | rfl | rfl |
    rfl | rfl | rfl
  all_goals first
    | exact trivial
    | exact h _ (by decide) rfl
    | exact ⟨h _ (by decide) rfl, fun w hw => by
        simp only [List.mem_cons, List.not_mem_nil, or_false] at hw
        rcases hw with rfl | rfl <;> exact h _ (by decide) rfl⟩

/-- Keys and sizes of the items of the pages, and the high keys. -/
def shape : LOut → Option (List (List (Nat × Nat × Bool) × Option Nat))
  | .ok s => some (s.pages.map (fun p =>
      (p.items.map (fun x => (x.row.tup.key, x.size, x.row.deleted)), p.hi.map (·.key))))
  | _ => none

/-- How a run ended: 0 well, 1 by an error in a critical section, 2 by use of a variable that was not
set, 3 by writing beyond an item. -/
def how : LOut → Nat
  | .ok _ => 0
  | .panic => 1
  | .undef => 2
  | .over => 3

/-! ## C59: room is always found -/

/-- Inserting and replacing never fails for want of room, whatever the runs before, if keys that
compare equal have the same length. -/
theorem C59_run_partial (bridge : Bool) (kl : Nat → Nat) (ops : List Op)
    (ho : ∀ op ∈ ops, OpOk kl op) :
    Lev.run bridge ops Lev.init ≠ .panic ∧ Lev.run bridge ops Lev.init ≠ .undef := by
  rcases LInv.run bridge (LInv.init kl) ho with ⟨s, h, _⟩ | h
  · rw [h]; exact ⟨fun e => (by cases e), fun e => (by cases e)⟩
  · rw [h]; exact ⟨fun e => (by cases e), fun e => (by cases e)⟩

set_option maxRecDepth 100000 in
/-- The case: pages are split, compacted and merged. -/
example : shape (Lev.run false (exOps.take 8) Lev.init) = some
    [([(10, 120, false), (20, 2616, false), (30, 2616, false)], some 40),
     ([(40, 2016, false), (50, 1520, false)], none)] := by decide +kernel

/-- On any page, leaf or internal, an item is put; the pages in place of it are well formed and in
order. -/
theorem C59_page_partial (bridge : Bool) (o : Orc) {p : Page} {e e2 : Env} {next : Nat}
    {csn : Option Nat} {off : Nat} {new : Item} {replace : Bool} (hp : p.Ok)
    (hn : PutPre p off new replace) (he : e.le e2) (hc : csnLe next csn)
    (hk : replace = true → ma new.row.tup.klen ≤ ma p.maxKey) :
    ∃ qs, putItem bridge o p e e2 next csn off new replace = .ok qs ∧
      PutOut p e2 csn off new replace qs := putItem_ok bridge o hp hn he hc hk

/-- The case: a downlink of 2688 bytes is put on a page with a downlink. -/
def exInner : Page := ⟨false, none, 512, [[⟨⟨⟨0, 0, 0, 1⟩, false, []⟩, 8⟩]], 0⟩

def exLink : Item := ⟨⟨⟨5, 2688, 2688, 2⟩, false, []⟩, 2696⟩

example : exInner.Ok ∧ PutPre exInner 1 exLink false ∧
    putItem false exOrc exInner (fun _ => none) (fun _ => none) 1 none 1 exLink false =
      .ok [⟨false, none, 512, [[⟨⟨⟨0, 0, 0, 1⟩, false, []⟩, 8⟩, exLink]], 2688⟩] := by
  refine ⟨⟨rfl, by decide, ?_, ?_, ?_, ?_, by decide, by decide, by decide⟩,
    ⟨rfl, by decide, by decide, by decide, fun h => (by cases h), fun _ => by decide, fun _ => rfl⟩,
    by decide +kernel⟩
  · intro x hx
    have : x = ⟨⟨⟨0, 0, 0, 1⟩, false, []⟩, 8⟩ := by simpa [Page.items, exInner] using hx
    subst this
    exact ⟨by decide, by decide, fun h => (by cases h), by decide, by decide⟩
  · intro _ x hx
    simp [keyed, Page.items, exInner] at hx
  · intro t ht; cases ht
  · intro x hx
    simp [keyed, Page.items, exInner] at hx

/-- A row is replaced by one with an equal but longer key: `1.0` and `1.00000` as `numeric` are an
example.  The longest key of the page is not updated, and the next split fails in a critical
section. -/
def exLonger : List Op :=
  [exPut 1 1 1700 8, exPut 1 2 1700 8, exPut 1 3 1700 8, exPut 1 5 8 8, exPut 1 5 2688 2688,
   .put { exOrc with target := 4 } 1 ⟨4, 300, 8, 4⟩ [] [] none]

set_option maxRecDepth 100000 in
theorem C59_violated : how (Lev.run false exLonger Lev.init) = 1 ∧
    (∀ op ∈ exLonger, ∀ o x t l1 l2 csn, op = .put o x t l1 l2 csn →
      t.len ≤ maxTup ∧ t.klen ≤ t.len) := by
  refine ⟨by decide +kernel, ?_⟩
  intro op hop o x t l1 l2 csn e
  subst e
  simp only [exLonger, exPut, List.mem_cons, List.not_mem_nil, or_false, Op.put.injEq] at hop
  rcases hop with h | h | h | h | h | h <;> (obtain ⟨-, -, rfl, -⟩ := h; decide)

/-! ## C60: only the row of the operation changes -/

/-- An operation on a level that came about by operations does to the rows what it should: its row
is changed, the others are left alone except deleted ones of finished transactions; processes told
that their tuples were inserted find them there, the others do not.  The rows stay in the order of
their keys. -/
theorem C60_step_partial (bridge : Bool) (kl : Nat → Nat) (ops : List Op) (op : Op)
    (ho : ∀ o ∈ ops ++ [op], OpOk kl o) {s s' : Lev} (hs : Lev.run bridge ops Lev.init = .ok s)
    (h : s.step bridge op = .ok s') :
    StepSpec bridge s op s' ∧ s'.rows.Pairwise (fun a b => a.tup.key < b.tup.key) := by
  have hi : LInv kl s := by
    rcases LInv.run bridge (LInv.init kl) (fun o h => ho o (List.mem_append_left _ h)) with
      ⟨s2, h2, hi⟩ | h2
    · rw [hs] at h2; cases h2; exact hi
    · rw [hs] at h2; cases h2
  rcases hi.step bridge (ho op (List.mem_append_right _ (List.mem_singleton.2 rfl))) with
    ⟨s2, h2, hi2, hsp⟩ | ⟨h2, _⟩
  · rw [h] at h2
    cases h2
    exact ⟨hsp, sorted_rows.1 hi2.ranged.sorted.1⟩
  · rw [h] at h2; cases h2

/-- What the search finds on the page it ends at. -/
def lookup (s : Lev) (k : Nat) : Option Row :=
  match s.pages[pageFor k s.pages]? with
  | none => none
  | some p => (rowAt p k (lower k p.items)).map (·.row)

/-- The search by high keys finds the row with a key if there is one. -/
theorem C60_lookup_partial (bridge : Bool) (kl : Nat → Nat) (ops : List Op)
    (ho : ∀ o ∈ ops, OpOk kl o) {s : Lev} (hs : Lev.run bridge ops Lev.init = .ok s) (k : Nat) :
    lookup s k = rowOf s.rows k := by
  have hi : LInv kl s := by
    rcases LInv.run bridge (LInv.init kl) ho with ⟨s2, h2, hi⟩ | h2
    · rw [hs] at h2; cases h2; exact hi
    · rw [hs] at h2; cases h2
  obtain ⟨A, p, B, lo', e1, e2, ha, hr, hlo, hhi⟩ := pageFor_spec hi.ranged (Nat.zero_le k)
  have hg : s.pages[pageFor k s.pages]? = some p := by rw [e2, e1]; simp
  have hrow := rowAt_level ha hr hlo hhi
  rw [← e1] at hrow
  unfold lookup
  rw [hg]
  dsimp only
  cases hd : rowAt p k (lower k p.items) with
  | none =>
    refine (rowOf_none hi ?_).symm
    intro x hx hk
    rw [(hrow x).2 ⟨hx, hk⟩] at hd
    cases hd
  | some x =>
    obtain ⟨h1, h2⟩ := (hrow x).1 hd
    have := rowOf_some hi h1
    rw [h2] at this
    exact this.symm

/-- The waiters told that their tuples are inserted, in the case. -/
def exTold : List Nat :=
  match Lev.run false (exOps.take 8) Lev.init with
  | .ok s => toldInserted s exOrc (fun l r => decide (l ≥ r)) 4 ⟨25, 800, 8, 25⟩
     [(7, 5, ⟨26, 700, 8, 26⟩), (8, 6, ⟨45, 700, 8, 45⟩)] [1, 2] none
  | _ => []

set_option maxRecDepth 100000 in
/-- The case: the waiter whose key belongs to the next page is not served; a deleted row is dropped
at the merge. -/
example : exTold = [7] ∧ shape (Lev.run false (exOps.take 9) Lev.init) = some
    [([(10, 120, false), (20, 2616, false), (25, 816, false), (26, 720, false), (30, 2616, false)],
       some 40),
     ([(40, 2016, false), (50, 1520, false)], none)] ∧
    shape (Lev.run false exOps Lev.init) = some
      [([(10, 120, false), (25, 816, false), (26, 720, false)], none)] :=
  ⟨by decide +kernel, by decide +kernel, by decide +kernel⟩

/-! ## C61: merging -/

/-- If the check says that two neighbours can be merged, the merged page holds the rows of both but
deleted ones of finished transactions; otherwise both are kept. -/
theorem C61_leaf (o : Orc) (vacR : Nat) {l r : Page} {e e2 : Env} {csn : Option Nat}
    (hl : l.Ok) (hr : r.Ok) (hll : l.leaf = true) (hrl : r.leaf = true) (hhi : l.hi ≠ none)
    (he : e.le e2) :
    mergePages o vacR l r e e2 csn = .ok [l, r] ∨
    ∃ q, mergePages o vacR l r e e2 csn = .ok [q] ∧ q.Ok ∧ q.leaf = true ∧ q.hi = r.hi ∧
      (q.items.map (·.row)).Sublist ((l.items ++ r.items).map (·.row)) ∧
      ∀ x ∈ l.items ++ r.items, x.row ∈ q.items.map (·.row) ∨
        (x.row.deleted = true ∧ e2.fin x.row.xid = true) := by
  rcases mergePages_ok o vacR (csn := csn) hl hr (by rw [hll, hrl]) hhi he
    (fun h => by rw [hll] at h; cases h) with h | ⟨q, h, q1, q2, q3, q4, _⟩
  · exact .inl h
  · right
    have kl' := keep_kept e2 csn l.items
    have kr' := keep_kept e2 csn r.items
    refine ⟨q, h, q1, by rw [q2, hll], q3, ?_, ?_⟩
    · rw [q4 hll, List.map_append, List.map_append]
      exact kl'.sub.append kr'.sub
    · intro x hx
      have hh := (Kept.hold (fun _ _ h => h) kl').append (Kept.hold (com := e2) (fun _ _ h => h) kr')
      rcases hh.to_ x hx with ⟨y, hy, hc⟩ | h
      · rw [q4 hll]
        exact .inl (List.mem_map.2 ⟨y, hy, hc.row⟩)
      · exact .inr h

/-- The same for internal pages: all downlinks are kept in order, and the first one of the right page
gets the key that separated the pages. -/
theorem C61_inner (o : Orc) (vacR : Nat) {l r : Page} {e e2 : Env} {csn : Option Nat}
    (hl : l.Ok) (hr : r.Ok) (hll : l.leaf = false) (hrl : r.leaf = false) {t : Tup}
    (hhi : l.hi = some t) (he : e.le e2) (hne : l.items ≠ []) :
    mergePages o vacR l r e e2 csn = .ok [l, r] ∨
    ∃ q, mergePages o vacR l r e e2 csn = .ok [q] ∧ q.Ok ∧ q.leaf = false ∧ q.hi = r.hi ∧
      q.items.map (fun x => x.row.tup.body) = (l.items ++ r.items).map (fun x => x.row.tup.body) ∧
      ∀ i, q.items[i]? = if i < l.items.length then l.items[i]? else
        if i = l.items.length then (r.items[0]?).map (fun x =>
          ⟨{ x.row with tup := ⟨t.key, t.klen, t.klen, x.row.tup.body⟩ }, itemHdr false + ma t.klen⟩)
        else r.items[i - l.items.length]? := by
  rcases mergePages_ok o vacR (csn := csn) hl hr (by rw [hll, hrl]) (by rw [hhi]; simp) he
    (fun _ => hne) with h | ⟨q, h, q1, q2, q3, _, q4⟩
  · exact .inl h
  · right
    have q4 := q4 hll
    rw [hhi] at q4
    refine ⟨q, h, q1, by rw [q2, hll], q3, ?_, ?_⟩
    · rw [q4, List.map_append, List.map_append]
      congr 1
      cases r.items <;> rfl
    · intro i
      rw [q4]
      by_cases hi : i < l.items.length
      · rw [if_pos hi, List.getElem?_append_left hi]
      · rw [if_neg hi, List.getElem?_append_right (by omega)]
        by_cases hi2 : i = l.items.length
        · rw [if_pos hi2, hi2, Nat.sub_self]
          cases r.items <;> rfl
        · rw [if_neg hi2]
          have h3 : i - l.items.length = (i - l.items.length - 1) + 1 := by omega
          cases r.items with
          | nil => rfl
          | cons x xs =>
            rw [h3]
            rfl

set_option maxRecDepth 100000 in
/-- The case: two leaf pages of the run before its merge, and what the merge makes of them (above). -/
example : shape (Lev.run false (exOps.take 16) Lev.init) = some
    [([(10, 120, false), (20, 2616, true), (25, 816, false), (26, 720, false)], some 40),
     ([], none)] := by decide +kernel

/-- Two internal pages that are merged. -/
def exLeft : Page := ⟨false, some ⟨9, 16, 16, 0⟩, 512, [[⟨⟨⟨0, 0, 0, 1⟩, false, []⟩, 8⟩, ⟨⟨⟨5, 16, 16, 2⟩, false, []⟩, 24⟩]], 16⟩

def exRight : Page := ⟨false, none, 512, [[⟨⟨⟨0, 0, 0, 3⟩, false, []⟩, 8⟩, ⟨⟨⟨12, 16, 16, 4⟩, false, []⟩, 24⟩]], 16⟩

example : (match mergePages exOrc 0 exLeft exRight (fun _ => none) (fun _ => none) none with
    | .ok [q] => q.items.map (fun x => (x.row.tup.key, x.row.tup.body, x.size))
    | _ => []) = [(0, 1, 8), (5, 2, 24), (9, 3, 24), (12, 4, 24)] := by decide +kernel

/-! ## C62: building an index -/

/-- With a fill factor from 40 the build succeeds; if the root level does not grow when the last
pages are written, the tree holds exactly the given rows in their order, and the search from the
root finds each of them. -/
theorem C62_build_partial {ff : Nat} (hff : 40 ≤ ff) (cut : Nat → Nat → Bool) {rows : List Tup}
    (hsz : ∀ t ∈ rows, t.len ≤ maxTup ∧ t.klen ≤ maxTup) (hN : rows.length < 2 ^ 31) :
    ∃ b root, buildIndex ff cut rows = .ok b ∧ b.disk.getLast? = some root ∧
      (scanTree b.disk b.root root.items).IsPrefix rows ∧
      (savedRoot ff cut rows = some b.root → scanTree b.disk b.root root.items = rows ∧
        (rows.Pairwise (fun x y => x.key < y.key) →
          ∀ t ∈ rows, descend b.disk t.key b.root root = some t)) := by
  obtain ⟨b, q, c, rest, h1, h2, h3, h4, nx, h5, h6⟩ := buildIndex_ok hff cut hsz hN
  refine ⟨b, q, h1, h2, ⟨rest, by rw [h5.scan, h3]⟩, ?_⟩
  intro hs
  obtain ⟨e1, e2⟩ := h6 hs
  rw [e1, List.append_nil] at h3
  refine ⟨by rw [h5.scan, h3], ?_⟩
  intro hasc t ht
  subst e2
  rw [h3] at hasc ht
  exact h5.descend (by rw [h4]; rfl) hasc ht (fun n hn => (by cases hn))

/-- The rows of the tree that is built. -/
def builtRows (ff : Nat) (rows : List Tup) : Option (List Tup) :=
  match buildIndex ff (fun _ _ => false) rows with
  | .ok b => b.disk.getLast?.map (fun q => scanTree b.disk b.root q.items)
  | _ => none

/-- `n` rows of a length. -/
def exRows (n len : Nat) : List Tup := (List.range n).map (fun i => ⟨i + 1, len, len, i⟩)

set_option maxRecDepth 100000 in
/-- The case: 40 rows of 1000 bytes make a tree of two levels. -/
example : savedRoot 90 (fun _ _ => false) (exRows 40 1000) = some 1 ∧
    builtRows 90 (exRows 40 1000) = some (exRows 40 1000) := by decide +kernel

set_option maxRecDepth 100000 in
/-- Seven rows of 2688 bytes with fill factor 90: the root is split when the last leaf is linked, and
the seventh row is lost. -/
theorem C62_violated_lost : builtRows 90 (exRows 7 2688) = some (exRows 6 2688) := by decide +kernel

set_option maxRecDepth 100000 in
/-- With fill factor 36 a row of 2688 bytes makes the build use a variable that was not set; with 10,
twenty rows of 300 bytes overrun the array of levels. -/
theorem C62_violated_fillfactor : builtRows 36 (exRows 1 2688) = none ∧
    builtRows 10 (exRows 20 300) = none := by decide +kernel

/-! ## C63: entries of a bridge index -/

/-- On a bridge index an operation never makes an entry vanish that is not deleted by a finished
transaction, not even undoing its insertion. -/
theorem C63_entry_partial (kl : Nat → Nat) (ops : List Op) (op : Op)
    (ho : ∀ o ∈ ops ++ [op], OpOk kl o) {s s' : Lev} (hs : Lev.run true ops Lev.init = .ok s)
    (h : s.step true op = .ok s') {r : Row} (hr : r ∈ s.rows)
    (hd : ¬ (r.deleted = true ∧ s.com.fin r.xid = true)) :
    ∃ r' ∈ s'.rows, r'.tup.key = r.tup.key := by
  have hsp := (C60_step_partial true kl ops op ho hs h).1
  have hi : LInv kl s := by
    rcases LInv.run true (LInv.init kl) (fun o h => ho o (List.mem_append_left _ h)) with
      ⟨s2, h2, hi⟩ | h2
    · rw [hs] at h2; cases h2; exact hi
    · rw [hs] at h2; cases h2
  have hrow : rowOf s.rows r.tup.key = some r := by
    obtain ⟨x, hx, rfl⟩ := mem_rows.1 hr
    exact rowOf_some hi hx
  have single : ∀ (k : Nat) (q : Option (Option Row)), Single s.com k s.rows s'.rows q →
      (r.tup.key = k → q ≠ some none) → ∃ r' ∈ s'.rows, r'.tup.key = r.tup.key := by
    intro k q hq hn
    cases q with
    | none =>
      have : s'.rows = s.rows := hq
      exact ⟨r, by rw [this]; exact hr, rfl⟩
    | some v =>
      obtain ⟨h1, h2⟩ := hq
      by_cases hk : r.tup.key = k
      · cases v with
        | none => exact (hn hk rfl).elim
        | some r' =>
          refine ⟨r', List.mem_of_find?_eq_some h1, ?_⟩
          have h3 := List.find?_some h1
          rw [hk]
          simpa using h3
      · rcases h2.stay r hr hk with h | h
        · exact ⟨r, h, rfl⟩
        · exact (hd h).elim
  cases op with
  | put o x t l1 l2 csn =>
    refine single _ _ hsp ?_
    intro hk
    rw [← hk, hrow]
    unfold putRow
    split
    · simp
    · dsimp only; split <;> simp
  | putAll o half x t ws l2 csn =>
    rcases hsp with ⟨h, _⟩ | ⟨ys, rej, _, _, _, _, h⟩
    · exact ⟨r, by rw [h]; exact hr, rfl⟩
    · rcases h.stay r hr (fun f => f) with h | h
      · exact ⟨r, h, rfl⟩
      · exact (hd h).elim
  | del x k =>
    refine single _ _ hsp ?_
    intro hk
    rw [← hk, hrow]
    unfold delRow
    split
    · simp
    · dsimp only; split <;> simp
  | lock x k =>
    refine single _ _ hsp ?_
    intro hk
    rw [← hk, hrow]
    unfold lockRow
    split
    · simp
    · dsimp only; split <;> simp
  | unlock x k =>
    refine single _ _ hsp ?_
    intro hk
    rw [← hk, hrow]
    unfold unlockRow
    simp
  | undo x k =>
    refine single _ _ hsp ?_
    intro hk
    rw [← hk, hrow]
    unfold undoRow
    dsimp only
    split
    · simp
    · split
      · split <;> simp
      · simp
  | finish x =>
    have : s'.rows = s.rows := hsp
    exact ⟨r, by rw [this]; exact hr, rfl⟩
  | merge o vacR i l1 l2 csn =>
    rcases hsp.stay r hr (fun f => f) with h | h
    · exact ⟨r, h, rfl⟩
    · exact (hd h).elim

/-- An entry of a bridge index is deleted, and a later insertion splits the page. -/
def exBridge : List Op :=
  [exPut 1 10 2000 8, exPut 1 20 2000 8, exPut 1 30 2000 8, .finish 1, .del 2 20, .finish 2,
   exPutAfter 4 15 2600 8 [1, 2]]

set_option maxRecDepth 100000 in
/-- The deleted entry is dropped though no VACUUM has asked for it. -/
theorem C63_violated :
    shape (Lev.run true (exBridge.take 6) Lev.init) = some
      [([(10, 2016, false), (20, 2016, true), (30, 2016, false)], none)] ∧
    shape (Lev.run true exBridge Lev.init) = some
      [([(10, 2016, false), (15, 2616, false), (30, 2016, false)], none)] :=
  ⟨by decide +kernel, by decide +kernel⟩

set_option maxRecDepth 100000 in
/-- The case: the insertion of an entry is undone, the entry stays, marked deleted. -/
example : shape (Lev.run true [exPut 1 10 2000 8, .undo 1 10] Lev.init) = some
    [([(10, 2016, true)], none)] := by decide +kernel

/-! ## C64: room for undoing -/

/-- In runs in which no transaction locks a row whose last change is by another and not finished,
undoing a change always has room, so no operation fails. -/
theorem C64_undo_partial (bridge : Bool) (kl : Nat → Nat) (ops : List Op)
    (ho : ∀ op ∈ ops, OpOk kl op) (hq : calmRun bridge ops Lev.init = true) :
    ∃ s, Lev.run bridge ops Lev.init = .ok s := by
  obtain ⟨s, h, _⟩ := CInv.run bridge (LInv.init kl) CInv.init ho hq
  exact ⟨s, h⟩

set_option maxRecDepth 100000 in
/-- The case: the run with its three undos. -/
example : calmRun false exOps Lev.init = true := by decide +kernel

/-- A row is made shorter, another transaction locks it and commits, an insertion compacts the page,
and the change is undone. -/
def exOver : List Op :=
  [exPut 1 10 2600 8, exPut 1 20 2600 8, .finish 1, exPut 2 10 100 8, .lock 3 10, .finish 3,
   exPutAfter 4 15 2600 8 [1, 3], exPutAfter 4 16 1000 8 [1, 3], .undo 2 10]

set_option maxRecDepth 100000 in
/-- The old tuple is written over the next item. -/
theorem C64_violated : how (Lev.run false exOver Lev.init) = 3 ∧
    shape (Lev.run false (exOver.take 8) Lev.init) = some
      [([(10, 120, false), (15, 2616, false), (16, 1016, false), (20, 2616, false)], none)] ∧
    (∀ op ∈ exOver, OpOk (fun _ => 8) op) := by
  refine ⟨by decide +kernel, by decide +kernel, ?_⟩
  intro op hop
  have h : ∀ t : Tup, t.len ≤ maxTup → t.klen = 8 → TupOk (fun _ => 8) t :=
    fun t h1 h2 => ⟨h1, by rw [h2]; decide, h2⟩
  simp only [exOver, List.mem_cons, List.not_mem_nil, or_false] at hop
  rcases hop with rfl | rfl | rfl | rfl | rfl | rfl | rfl | rfl | rfl
  all_goals first
    | exact trivial
    | exact h _ (by decide) rfl

end Verif.PageSplit
