import Verif.SysCache.Keep

/-!
# System caches: the properties
-/

namespace Verif.SysCache

/-! ## C133: the order of the keys -/

/-- **C133 (part).**  Full claim: the comparison of the entries of a system cache is a total order in
which two entries are equal only if they are the same key of the same database added at the same
LSN.  Proved when the values of each column lie less than `2 ^ 31` apart (`w` names the smallest
value of each column).  Missing: OIDs further apart, see `C133_violated`. -/
theorem C133_partial (w : List (Option Nat)) (a b c : TreeKey) (ha : InWindow w a.cols)
    (hb : InWindow w b.cols) (hc : InWindow w c.cols) :
    (treeCmp false a b = 0 ↔ a = b) ∧
    (treeCmp false a b < 0 ↔ 0 < treeCmp false b a) ∧
    (treeCmp false a b < 0 → treeCmp false b c < 0 → treeCmp false a c < 0) := by
  obtain ⟨d1, k1, l1⟩ := a
  obtain ⟨d2, k2, l2⟩ := b
  obtain ⟨d3, k3, l3⟩ := c
  simp only at ha hb hc
  have z12 := keyCmp_zero_window w k1 k2 ha hb
  have z21 := keyCmp_zero_window w k2 k1 hb ha
  have z23 := keyCmp_zero_window w k2 k3 hb hc
  have z13 := keyCmp_zero_window w k1 k3 ha hc
  have a12 := keyCmp_anti w k1 k2 ha hb
  have t := keyCmp_trans w k1 k2 k3 ha hb hc
  have s21 : k2 = k1 ↔ k1 = k2 := ⟨Eq.symm, Eq.symm⟩
  refine ⟨?_, ?_, ?_⟩
  · simp only [treeCmp, TreeKey.mk.injEq]
    by_cases hd : d1 = d2
    · by_cases hk : k1 = k2
      · by_cases hl : l1 = l2
        · simp [hd, hk, hl, keyCmp_zero_window w k2 k2 hb hb]
        · simp only [hd, hk, hl, keyCmp_zero_window w k2 k2 hb hb]
          simp
          split <;> omega
      · have : keyCmp k1 k2 ≠ 0 := fun e => hk (z12.mp e)
        simp [hd, hk, this]
    · simp only [hd, false_and, iff_false]
      simp
      split <;> omega
  · simp only [treeCmp]
    by_cases hd : d1 = d2
    · subst hd
      by_cases hk : k1 = k2
      · subst hk
        simp only [z12.mpr rfl]
        simp
        by_cases hl : l1 = l2
        · simp [hl]
        · have hl' : ¬ l2 = l1 := fun e => hl e.symm
          simp only [hl, hl', if_false]
          split <;> split <;> omega
      · have n1 : keyCmp k1 k2 ≠ 0 := fun e => hk (z12.mp e)
        have n2 : keyCmp k2 k1 ≠ 0 := fun e => hk (z21.mp e).symm
        simp [n1, n2, a12]
    · have hd' : ¬ d2 = d1 := fun e => hd e.symm
      simp only [ne_eq, hd, hd', not_false_eq_true, if_true]
      split <;> split <;> omega
  · simp only [treeCmp]
    by_cases h12 : d1 = d2
    · subst h12
      by_cases h23 : d1 = d3
      · subst h23
        simp only [ne_eq, not_true_eq_false, if_false]
        by_cases e12 : k1 = k2
        · subst e12
          simp only [z12.mpr rfl]
          by_cases e23 : k1 = k3
          · subst e23
            simp only [z23.mpr rfl]
            simp
            split <;> split <;> (try split) <;> (try split) <;> (try split) <;> (try split) <;> omega
          · have n : keyCmp k1 k3 ≠ 0 := fun e => e23 (z23.mp e)
            simp [n]
        · have n12 : keyCmp k1 k2 ≠ 0 := fun e => e12 (z12.mp e)
          by_cases e23 : k2 = k3
          · subst e23
            simp only [z23.mpr rfl]
            simp [n12]
            intro h' _; exact h'
          · have n23 : keyCmp k2 k3 ≠ 0 := fun e => e23 (z23.mp e)
            simp only [n12, n23, not_false_eq_true, if_true]
            intro h1 h2
            have := t h1 h2
            have n13 : keyCmp k1 k3 ≠ 0 := by omega
            simp [n13, this]
      · simp [h23]
    · by_cases h23 : d2 = d3
      · subst h23
        simp only [ne_eq, h12, not_false_eq_true, if_true]
        intro h _; exact h
      · simp only [ne_eq, h12, h23, not_false_eq_true, if_true]
        intro h1 h2
        split at h1 <;> split at h2 <;> omega

/-- Three entries of the cache of enum labels, with the same type and LSNs and names that differ. -/
theorem C133_partial_case :
    InWindow [some 16384, none] [.datum 16500, .name [97, 98]] ∧
    treeCmp false ⟨5, [.datum 16500, .name [97, 98]], 7⟩ ⟨5, [.datum 16500, .name [97, 99]], 3⟩ < 0 ∧
    treeCmp false ⟨5, [.datum 16500, .name [97, 99]], 3⟩ ⟨5, [.datum 16501, .name [97]], 1⟩ < 0 ∧
    treeCmp false ⟨5, [.datum 16500, .name [97, 98]], 7⟩ ⟨5, [.datum 16500, .name [97, 98]], 9⟩ < 0 ∧
    treeCmp true ⟨5, [.datum 16500, .name [97, 98]], 7⟩ ⟨5, [.datum 16500, .name [97, 98]], 9⟩ = 0 := by
  refine ⟨?_, by decide +kernel, by decide +kernel, by decide +kernel, by decide +kernel⟩
  simp [InWindow, NameOk]

/-- **C133 (part).**  A search by a bound finds an entry only of the key asked for, for all OIDs:
an entry compares equal to the bound only if database and columns are the same. -/
theorem C133_partial_bound (w : List Bool) (a b : TreeKey) (ha : IsOids w a.cols)
    (hb : IsOids w b.cols) : treeCmp true a b = 0 ↔ a.datoid = b.datoid ∧ a.cols = b.cols := by
  have z := keyCmp_zero_oids w a.cols b.cols ha hb
  simp only [treeCmp]
  by_cases hd : a.datoid = b.datoid
  · by_cases hk : a.cols = b.cols
    · simp [hd, hk, keyCmp_zero_oids w b.cols b.cols hb hb]
    · have : keyCmp a.cols b.cols ≠ 0 := fun e => hk (z.mp e)
      simp [hd, hk, this]
  · simp only [hd, false_and, iff_false]
    simp
    split <;> omega

/-- The keys of two operators far apart. -/
theorem C133_partial_bound_case :
    IsOids [false, false] [.datum 1, .datum 4294967295] ∧
    treeCmp true ⟨5, [.datum 1, .datum 4294967295], 7⟩ ⟨5, [.datum 1, .datum 4294967295], 9⟩ = 0 ∧
    treeCmp true ⟨5, [.datum 1, .datum 4294967295], 7⟩ ⟨5, [.datum 1, .datum 0], 9⟩ ≠ 0 := by
  refine ⟨by simp [IsOids], by decide +kernel, by decide +kernel⟩

/-- An entry of database 5 with one OID as its key. -/
def oidKey (n : Nat) : TreeKey := ⟨5, [.datum n], 0⟩

/-- A list is sorted if every entry is before every later one. -/
def sortedBy (t : List TreeKey) : Prop := t.Pairwise (fun a b => treeCmp false a b < 0)

/-- **C133 fails.**  The difference of two OIDs is kept in a signed `int`: of the OIDs 1,
`0x60000001` and `0xC0000001` each is before the next and the last is before the first, so there is
no order in which a tree could hold the three; and `0x80000001` is both before and after 1. -/
theorem C133_violated :
    (treeCmp false (oidKey 1) (oidKey 0x60000001) < 0 ∧
     treeCmp false (oidKey 0x60000001) (oidKey 0xC0000001) < 0 ∧
     treeCmp false (oidKey 0xC0000001) (oidKey 1) < 0) ∧
    (∀ t : List TreeKey, oidKey 1 ∈ t → oidKey 0x60000001 ∈ t → oidKey 0xC0000001 ∈ t →
      t.length = 3 → ¬ sortedBy t) ∧
    (treeCmp false (oidKey 1) (oidKey 0x80000001) < 0 ∧
     treeCmp false (oidKey 0x80000001) (oidKey 1) < 0) := by
  refine ⟨by decide +kernel, ?_, by decide +kernel⟩
  intro t h1 h2 h3 hl hs
  match t, hl with
  | [x, y, z], _ =>
    unfold sortedBy at hs
    simp only [List.pairwise_cons, List.mem_cons, List.not_mem_nil, or_false, forall_eq_or_imp,
      forall_eq] at hs
    obtain ⟨⟨hxy, hxz⟩, hyz, _⟩ := hs
    simp only [List.mem_cons, List.not_mem_nil, or_false] at h1 h2 h3
    have n12 : oidKey 1 ≠ oidKey 0x60000001 := by decide +kernel
    have n13 : oidKey 1 ≠ oidKey 0xC0000001 := by decide +kernel
    have n23 : oidKey 0x60000001 ≠ oidKey 0xC0000001 := by decide +kernel
    have g12 : ¬ treeCmp false (oidKey 0x60000001) (oidKey 1) < 0 := by decide +kernel
    have g23 : ¬ treeCmp false (oidKey 0xC0000001) (oidKey 0x60000001) < 0 := by decide +kernel
    have g31 : ¬ treeCmp false (oidKey 1) (oidKey 0xC0000001) < 0 := by decide +kernel
    rcases h1 with h1 | h1 | h1 <;> rcases h2 with h2 | h2 | h2 <;> rcases h3 with h3 | h3 | h3 <;>
      subst_vars <;> first | contradiction | (simp_all)

/-! ## C134: the version found -/

/-- **C134 (part).**  Full claim: whatever was done to a system cache, a search for a key at an LSN
is defined and gives the version of the entry in force at that LSN.  Proved if no entry is added
with an LSN read before WAL was written, for a backend which has no entry of the key in its fast
cache.  Also proved: then no step at all is undefined.  Missing: see `C134_violated_freed` and
`C134_violated_lsn`. -/
theorem C134_partial (h : Nat → Nat) (ops : List Op) (hf : FreshLsn (ticks ops) ops) :
    ∃ s, run h init ops = some s ∧
      ∀ b k l, (∀ e ∈ s.fast b, e.key ≠ k) →
        ∃ s', search h s b k l = some (s', inForce s.tree k l) := by
  obtain ⟨s, hr, hi⟩ := inv_run h (ticks ops) ops init inv_init (by simp [init]) hf
  refine ⟨s, hr, ?_⟩
  intro b k l hc
  obtain ⟨s', r, hs, sp⟩ := search_spec h s b k l hi
  exact ⟨s', by rw [hs, sp.cold hc]⟩

/-- Two objects are added at two positions, one of them is altered; a backend without entries finds
both, and the younger one not at the older position. -/
theorem C134_partial_case :
    FreshLsn (ticks [.tick 5, .add 1 7 100 20, .tick 4, .add 1 8 200 20, .update 1 7 101])
      [.tick 5, .add 1 7 100 20, .tick 4, .add 1 8 200 20, .update 1 7 101] ∧
    ((run (· + 1) init [.tick 5, .add 1 7 100 20, .tick 4, .add 1 8 200 20, .update 1 7 101]).map
      (fun s => (s.tree, (search (· + 1) s 2 7 9).map (·.2), (search (· + 1) s 2 8 8).map (·.2)))) =
    some ([⟨7, 5, false, 101⟩, ⟨8, 9, false, 200⟩], some (some ⟨7, 5, false, 101⟩), some none) := by
  refine ⟨?_, by decide +kernel⟩
  intro b k v l hm
  simp [ticks] at hm ⊢
  omega

/-- **C134 (part).**  There is never a second version of a key. -/
theorem C134_partial_one (h : Nat → Nat) (ops : List Op) (hf : FreshLsn (ticks ops) ops)
    (s : State) (hr : run h init ops = some s) :
    ∀ x ∈ s.tree, ∀ y ∈ s.tree, x.key = y.key → x = y := by
  obtain ⟨s', hr', hi⟩ := inv_run h (ticks ops) ops init inv_init (by simp [init]) hf
  rw [hr] at hr'
  injection hr' with hr'
  subst hr'
  intro x hx y hy hk
  exact one_eq hi.one hx hy hk

/-- The same object is added twice, by two backends: one version. -/
theorem C134_partial_one_case :
    ((run (· + 1) init [.tick 5, .add 1 7 100 20, .tick 4, .add 2 7 100 20]).map (·.tree)) =
      some [⟨7, 5, false, 100⟩] := by
  decide +kernel

/-- **C134 fails: freed memory.**  Backend 1 reads the LSN 5.  WAL is written up to 9, backend 2 adds
the entry of object 7 at 9.  Backend 1 adds the entry too: the version of LSN 9 is not in force at
5, so a second version is stored.  When backend 1 needs the entry again, still with the LSN 5, the
version of LSN 5 is freed and then kept in the fast cache and returned. -/
theorem C134_violated_freed :
    ((run (· + 1) init [.tick 9, .add 2 7 100 9, .add 1 7 100 5]).map (·.tree)) =
      some [⟨7, 5, false, 100⟩, ⟨7, 9, false, 100⟩] ∧
    (run (· + 1) init [.tick 9, .add 2 7 100 9, .add 1 7 100 5, .add 1 7 100 5]).isNone = true ∧
    (run (· + 1) init [.tick 9, .add 2 7 100 9, .add 1 7 100 5, .search 3 7 8]).isNone = true := by
  refine ⟨by decide +kernel, by decide +kernel, by decide +kernel⟩

/-- **C134 fails: the LSN is not looked at.**  An entry added at LSN 5 is not in force at LSN 3; a
backend which found it once gets it for LSN 3 as well, another backend does not. -/
theorem C134_violated_lsn :
    ((run (· + 1) init [.tick 5, .add 1 7 100 5, .search 2 7 5]).map (fun s =>
      [(search (· + 1) s 2 7 3).map (·.2), (search (· + 1) s 3 7 3).map (·.2),
       some (inForce s.tree 7 3)])) =
    some [some (some ⟨7, 5, false, 100⟩), some none, some none] := by
  decide +kernel

/-! ## C135: invalidation -/

/-- **C135 (part).**  Full claim: a backend which handled an invalidation message sees what the tree
has for the keys the message is about: those with the hash value, or all of them if the value is
zero.  Proved for the message of the hash value of the key, for any hash function and whatever
other keys share the value; no entry is added with an LSN read before.  Missing: zero, see
`C135_violated`. -/
theorem C135_partial (h : Nat → Nat) (ops : List Op) (hf : FreshLsn (ticks ops) ops) (s : State)
    (hr : run h init ops = some s) (b k l : Nat) :
    ∃ s1 s2, step h s (.inval b (h k)) = some s1 ∧
      search h s1 b k l = some (s2, inForce s.tree k l) := by
  obtain ⟨s', hr', hi⟩ := inv_run h (ticks ops) ops init inv_init (by simp [init]) hf
  rw [hr] at hr'
  injection hr' with hr'
  subst hr'
  obtain ⟨hc, ht⟩ := inval_cold h s b k
  obtain ⟨s2, r, hs, sp⟩ := search_spec h (inval h s b (h k)) b k l (inv_inval h s b (h k) hi)
  refine ⟨_, s2, rfl, ?_⟩
  rw [hs, sp.cold hc, ht]

/-- Backend 2 found the entry before backend 1 altered it; two keys share the hash value. -/
theorem C135_partial_case :
    ((run (· % 10) init [.tick 5, .add 1 7 100 5, .add 1 17 300 5, .search 2 7 5, .search 2 17 5,
        .update 1 7 101]).map (fun s =>
      [(search (· % 10) s 2 7 5).map (·.2),
       (search (· % 10) (inval (· % 10) s 2 7) 2 7 5).map (·.2),
       (search (· % 10) (inval (· % 10) s 2 7) 2 17 5).map (·.2)])) =
    some [some (some ⟨7, 5, false, 100⟩), some (some ⟨7, 5, false, 101⟩),
      some (some ⟨17, 5, false, 300⟩)] := by
  decide +kernel

/-- **C135 fails.**  Backend 2 found an entry, backend 1 altered it.  Backend 2 missed the message and
gets the one for all keys, with hash value zero: only the bucket of the value zero is dropped and
the old entry stays. -/
theorem C135_violated :
    ((run (· + 1) init [.tick 5, .add 1 7 100 5, .search 2 7 5, .update 1 7 101, .inval 2 0]).map
      (fun s => [(search (· + 1) s 2 7 5).map (·.2), some (inForce s.tree 7 5)])) =
    some [some (some ⟨7, 5, false, 100⟩), some (some ⟨7, 5, false, 101⟩)] := by
  decide +kernel

/-! ## C136: no entry is lost -/

/-- **C136 (part).**  Full claim: the entry of an object which was asked for stays in the cache until a
transaction which drops the object commits.  Proved for operations as `Disciplined` says: an object
is not touched by others while it is being dropped nor added again after it was dropped, and no
checkpoint comes while a drop is open.  Missing: see `C136_violated_rollback`,
`C136_violated_refresh` and `C136_violated_stale`. -/
theorem C136_partial (h : Nat → Nat) (ops : List Op) (hf : FreshLsn (ticks ops) ops)
    (hd : Disciplined noObjects ops) (s : State) (hr : run h init ops = some s) :
    ∀ k ∈ (objects noObjects ops).need, ∃ e ∈ s.tree, e.key = k := by
  have hk := keep_run h (ticks ops) ops init s noObjects inv_init keep_init (by simp [init]) hf hd hr
  intro k hm
  exact (hk.need k hm).2

/-- **C136 (part).**  The entry of an object nobody is dropping and nobody dropped is not marked as
deleted either, so that no checkpoint to come removes it. -/
theorem C136_partial_mark (h : Nat → Nat) (ops : List Op) (hf : FreshLsn (ticks ops) ops)
    (hd : Disciplined noObjects ops) (s : State) (hr : run h init ops = some s) (k : Nat)
    (hs : (objects noObjects ops).Steady k) : ∀ e ∈ s.tree, e.key = k → e.deleted = false := by
  have hk := keep_run h (ticks ops) ops init s noObjects inv_init keep_init (by simp [init]) hf hd hr
  exact (hk.steady k hs).1

/-- Object 7 is dropped and the drop is rolled back, object 8 is dropped; then a checkpoint. -/
theorem C136_partial_case :
    Disciplined noObjects [.tick 5, .add 1 7 100 30, .add 1 8 200 30, .tick 9, .delete 1 7, .delete 2 8,
      .search 1 7 20, .abort 1, .commit 2, .update 3 7 101, .checkpoint 12] ∧
    (objects noObjects [.tick 5, .add 1 7 100 30, .add 1 8 200 30, .tick 9, .delete 1 7, .delete 2 8,
      .search 1 7 20, .abort 1, .commit 2, .update 3 7 101, .checkpoint 12]).need = [7] ∧
    ((run (· + 1) init [.tick 5, .add 1 7 100 30, .add 1 8 200 30, .tick 9, .delete 1 7, .delete 2 8,
      .search 1 7 20, .abort 1, .commit 2, .update 3 7 101, .checkpoint 12]).map (·.tree)) =
      some [⟨7, 5, false, 101⟩] := by
  refine ⟨?_, by decide +kernel, by decide +kernel⟩
  simp [Disciplined, Objects.Allows, Objects.Steady, Objects.step, noObjects, Objects.dropsOf]

/-- **C136 fails: a checkpoint and a rollback.**  A type added at LSN 5 is dropped; the mark is written
at once, by a transaction of its own.  A checkpoint, whose redo position is behind LSN 5, removes
the entry.  The drop is rolled back: the type exists, its entry does not. -/
theorem C136_violated_rollback :
    (objects noObjects [.tick 5, .add 1 7 100 5, .tick 4, .delete 1 7, .checkpoint 9, .abort 1]).need
      = [7] ∧
    ((run (· + 1) init [.tick 5, .add 1 7 100 5, .tick 4, .delete 1 7, .checkpoint 9, .abort 1]).map
      (fun s => (s.tree, (search (· + 1) s 2 7 9).map (·.2)))) = some ([], some none) := by
  refine ⟨by decide +kernel, by decide +kernel⟩

/-- **C136 fails: a refresh.**  An entry is dropped in order to be added anew, as the refresh after an
upgrade does: the entry marked as deleted is found, so nothing is added, and the next checkpoint
removes it. -/
theorem C136_violated_refresh :
    (objects noObjects [.tick 5, .add 1 7 100 5, .tick 4, .delete 1 7, .add 1 7 101 9, .commit 1]).need
      = [7, 7] ∧
    ((run (· + 1) init [.tick 5, .add 1 7 100 5, .tick 4, .delete 1 7, .add 1 7 101 9, .commit 1]).map
      (·.tree)) = some [⟨7, 5, true, 100⟩] ∧
    ((run (· + 1) init [.tick 5, .add 1 7 100 5, .tick 4, .delete 1 7, .add 1 7 101 9, .commit 1,
      .checkpoint 9]).map (·.tree)) = some [] := by
  refine ⟨by decide +kernel, by decide +kernel, by decide +kernel⟩

/-- **C136 fails: a mark kept in another backend.**  Backend 2 looks up an object while backend 1 drops
it, and keeps the entry with the mark; the drop is rolled back.  When backend 2 alters the object it
writes its entry back with the mark, and the next checkpoint removes it. -/
theorem C136_violated_stale :
    (objects noObjects [.tick 5, .add 1 7 100 5, .tick 4, .delete 1 7, .search 2 7 9, .abort 1,
      .update 2 7 101]).need = [7] ∧
    ((run (· + 1) init [.tick 5, .add 1 7 100 5, .tick 4, .delete 1 7, .search 2 7 9, .abort 1,
      .update 2 7 101]).map (·.tree)) = some [⟨7, 5, true, 101⟩] ∧
    ((run (· + 1) init [.tick 5, .add 1 7 100 5, .tick 4, .delete 1 7, .search 2 7 9, .abort 1,
      .update 2 7 101, .checkpoint 9]).map (·.tree)) = some [] := by
  refine ⟨by decide +kernel, by decide +kernel, by decide +kernel⟩

/-! ## C137: the entries of a new database -/

theorem storeCells_vals : ∀ (cs : List Cell) (names : List (List Nat)),
    (∀ c ∈ cs, ∃ v, c = .val v) → storeCells cs names = some (cs, names)
  | [], _, _ => rfl
  | c :: cs, names, hv => by
    obtain ⟨v, rfl⟩ := hv c (by simp)
    have ih := storeCells_vals cs names (fun c hc => hv c (by simp [hc]))
    simp [storeCells, ih]

theorem copyTree_spec (src dst cur : Nat) : ∀ (rs tree : List Row),
    (∀ r ∈ rs, ∀ c ∈ r.cells, ∃ v, c = .val v) →
    ∃ tree', copyTree src dst cur rs tree = some tree' ∧
      ∀ x, x ∈ tree' ↔ x ∈ tree ∨ ∃ r ∈ rs, Live src r ∧
        x = { r with datoid := dst, lsn := cur, dataLength := 0, names := [] }
  | [], tree, _ => ⟨tree, rfl, by simp⟩
  | r :: rs, tree, hv => by
    have hv' : ∀ r ∈ rs, ∀ c ∈ r.cells, ∃ v, c = .val v := fun r hr => hv r (by simp [hr])
    unfold copyTree
    by_cases hl : r.datoid = src ∧ r.deleted = false
    · rw [if_pos hl]
      simp only [addRow, storeCells_vals r.cells [] (hv r (by simp))]
      obtain ⟨t', h1, h2⟩ := copyTree_spec src dst cur rs
        (tree ++ [⟨dst, cur, false, 0, r.cells, [], r.val⟩]) hv'
      refine ⟨t', h1, ?_⟩
      intro x
      rw [h2 x]
      simp only [List.mem_append, List.mem_singleton, List.mem_cons, exists_eq_or_imp]
      rw [hl.2]
      have : Live src r := hl
      simp only [this, true_and, List.not_mem_nil, or_false]
      exact or_assoc
    · rw [if_neg hl]
      obtain ⟨t', h1, h2⟩ := copyTree_spec src dst cur rs tree hv'
      refine ⟨t', h1, ?_⟩
      intro x
      rw [h2 x]
      have : ¬ Live src r := hl
      simp [this]

/-- **C137 (part).**  Full claim: when a database is created from a template, the new one gets a copy
of each entry of the template not marked as deleted, under its own OID and with the same key and
contents, and nothing else changes.  Proved for the caches whose keys have no name (all but that of
enum labels).  Missing: see `C137_violated`. -/
theorem C137_partial (src dst cur : Nat) (tree : List Row)
    (hv : ∀ r ∈ tree, ∀ c ∈ r.cells, ∃ v, c = .val v) :
    ∃ tree', copyTree src dst cur tree tree = some tree' ∧
      ∀ x, x ∈ tree' ↔ x ∈ tree ∨ ∃ r ∈ tree, r.datoid = src ∧ r.deleted = false ∧
        x = { r with datoid := dst, lsn := cur, dataLength := 0, names := [] } := by
  obtain ⟨t', h1, h2⟩ := copyTree_spec src dst cur tree tree hv
  refine ⟨t', h1, ?_⟩
  intro x
  rw [h2 x]
  simp only [Live, and_assoc]

/-- A template with two live entries and one marked as deleted, beside another database. -/
theorem C137_partial_case :
    copyTree 5 9 40 [⟨5, 3, false, 0, [.val 1], [], 10⟩, ⟨5, 4, true, 0, [.val 2], [], 11⟩,
        ⟨6, 4, false, 0, [.val 1], [], 12⟩, ⟨5, 7, false, 0, [.val 3], [], 13⟩]
      [⟨5, 3, false, 0, [.val 1], [], 10⟩, ⟨5, 4, true, 0, [.val 2], [], 11⟩,
        ⟨6, 4, false, 0, [.val 1], [], 12⟩, ⟨5, 7, false, 0, [.val 3], [], 13⟩] =
    some [⟨5, 3, false, 0, [.val 1], [], 10⟩, ⟨5, 4, true, 0, [.val 2], [], 11⟩,
        ⟨6, 4, false, 0, [.val 1], [], 12⟩, ⟨5, 7, false, 0, [.val 3], [], 13⟩,
        ⟨9, 40, false, 0, [.val 1], [], 10⟩, ⟨9, 40, false, 0, [.val 3], [], 13⟩] := by
  decide +kernel

/-- What an entry with a name looks like once it is stored: the name is read back. -/
theorem C137_partial_store (tree : List Row) (d l v o : Nat) (n : List Nat) :
    ∃ r, addRow tree ⟨d, l, false, 0, [.val o, .ptr n], [], v⟩ = some (tree ++ [r]) ∧
      r.datoid = d ∧ r.val = v ∧ r.cells[0]? = some (.val o) ∧
      (r.cells[1]?).bind (rowName r) = some n := by
  refine ⟨_, rfl, rfl, rfl, rfl, ?_⟩
  simp [rowName]

/-- The label `ab` of the enum 16500. -/
theorem C137_partial_store_case :
    addRow [] ⟨5, 3, false, 0, [.val 16500, .ptr [97, 98]], [], 10⟩ =
      some [⟨5, 3, false, 64, [.val 16500, .off 0], [[97, 98]], 10⟩] := by
  decide +kernel

/-- **C137 fails.**  The label of an enum is stored as the offset of a name; the copy hands the stored
entry to `o_sys_cache_add` as the key, which reads the offset as a pointer. -/
theorem C137_violated :
    ((addRow [] ⟨5, 3, false, 0, [.val 16500, .ptr [97, 98]], [], 10⟩).map
      (fun t => copyTree 5 9 40 t t)) = some none := by
  decide +kernel

end Verif.SysCache
