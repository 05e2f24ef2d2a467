import Verif.BridgeVacuum.Model

/-! # VACUUM of bridged indexes: properties -/

namespace Verif.BridgeVacuum

/-- The TIDs of the dead entries. -/
def deadTids (es : List Entry) : List Tid := (es.filter Entry.dead).map Entry.tid

/-- The TIDs collected for the current block. -/
def pend (v : Vac) : List Tid :=
  match v.cur with
  | none => []
  | some b => v.offs.map fun o => (b, o)

/-- The store has blocks before the current one. -/
def Ok (v : Vac) : Prop :=
  v.num = (tids v.store).length ∧ (v.cur = none → v.store = [] ∧ v.offs = []) ∧
    ∀ b, v.cur = some b → ∀ x ∈ v.store, x.1 < b

theorem tids_append (s s' : Store) : tids (s ++ s') = tids s ++ tids s' := by
  simp [tids]

theorem tids_single (b : Nat) (os : List Nat) : tids [(b, os)] = os.map fun o => (b, o) := by
  simp [tids]

theorem finish_some {v : Vac} {b : Nat} (h : Ok v) (hb : v.cur = some b) :
    finish v = { v with store := v.store ++ [(b, v.offs)], num := v.num + v.offs.length } := by
  have hf : v.store.filter (fun x => decide (x.1 ≠ b)) = v.store := by
    rw [List.filter_eq_self]
    intro x hx
    have := h.2.2 b hb x hx
    simp only [ne_eq, decide_not, Bool.not_eq_eq_eq_not, Bool.not_true, decide_eq_false_iff_not]
    omega
  unfold finish
  rw [hb]
  simp only [setBlock, hf]

theorem finish_tids {v : Vac} (h : Ok v) : tids (finish v).store = tids v.store ++ pend v ∧
    (finish v).num = (tids (finish v).store).length := by
  cases hb : v.cur with
  | none =>
    have := h.2.1 hb
    simp [finish, pend, hb, h.1]
  | some b =>
    rw [finish_some h hb]
    simp only [tids_append, tids_single, pend, hb, List.length_append, List.length_map, h.1, and_self]

theorem addDead_ok {v : Vac} {t : Tid} (h : Ok v) (hle : ∀ b, v.cur = some b → b ≤ t.1) :
    Ok (addDead v t) ∧ (addDead v t).cur = some t.1 ∧
      tids (addDead v t).store ++ pend (addDead v t) = tids v.store ++ pend v ++ [t] := by
  by_cases hc : v.cur = some t.1
  · have e : addDead v t = { v with offs := v.offs ++ [t.2] } := by
      unfold addDead
      simp only [hc, ne_eq, not_true_eq_false, if_false]
    rw [e]
    refine ⟨⟨h.1, fun hn => ?_, h.2.2⟩, hc, ?_⟩
    · simp only [hc] at hn
      exact absurd hn (by simp)
    · simp only [pend, hc, List.map_append, List.map_cons, List.map_nil, List.append_assoc]
  · have e : addDead v t = { finish v with cur := some t.1, offs := [t.2] } := by
      unfold addDead
      simp only [ne_eq, hc, not_false_eq_true, if_true, List.nil_append]
    obtain ⟨h1, h2⟩ := finish_tids h
    rw [e]
    refine ⟨⟨h2, fun hn => absurd hn (by simp), ?_⟩, rfl, ?_⟩
    · intro b hb x hx
      simp only [Option.some.injEq] at hb
      subst hb
      cases hv : v.cur with
      | none =>
        have hs := h.2.1 hv
        simp only [finish, hv, hs.1] at hx
        exact absurd hx (by simp)
      | some c =>
        have hct := hle c hv
        have hne : c ≠ t.1 := fun e => hc (by rw [hv, e])
        rw [finish_some h hv] at hx
        rcases List.mem_append.mp hx with hx | hx
        · have := h.2.2 c hv x hx
          omega
        · rw [List.mem_singleton.mp hx]
          show c < t.1
          omega
    · show tids (finish v).store ++ [(t.1, t.2)] = _
      rw [h1]

theorem reset_ok {v : Vac} {b : Nat} (hb : v.cur = some b) : Ok (reset v) :=
  ⟨rfl, fun h => absurd h (by simp [reset, hb]), fun _ _ x hx => absurd hx (by simp [reset])⟩

theorem scan_tids (full : Nat → Store → Bool) (es : List Entry) : ∀ v : Vac, Ok v →
    es.Pairwise (fun x y => x.tid.1 ≤ y.tid.1) → (∀ b, v.cur = some b → ∀ e ∈ es, b ≤ e.tid.1) →
    (scan full es v).1.flatMap tids ++ tids (scan full es v).2.store =
        tids v.store ++ pend v ++ deadTids es ∧
      (scan full es v).2.num = (tids (scan full es v).2.store).length := by
  induction es with
  | nil =>
    intro v h _ _
    obtain ⟨h1, h2⟩ := finish_tids h
    simp only [scan, List.flatMap_nil, List.nil_append, deadTids, List.filter_nil, List.map_nil,
      List.append_nil]
    exact ⟨h1, h2⟩
  | cons e es ih =>
    intro v h hp hle
    rw [List.pairwise_cons] at hp
    unfold scan
    by_cases hd : e.dead = true
    · have hdt : deadTids (e :: es) = e.tid :: deadTids es := by
        simp [deadTids, List.filter_cons, hd]
      obtain ⟨a1, a2, a3⟩ := addDead_ok h (t := e.tid) fun b hb => hle b hb e (by simp)
      rw [if_pos hd, hdt]
      simp only []
      by_cases hf : full es.length (addDead v e.tid).store = true
      · rw [if_pos hf]
        obtain ⟨i1, i2⟩ := ih (reset (addDead v e.tid)) (reset_ok a2) hp.2 (by
          intro b hb x hx
          simp only [reset, a2, Option.some.injEq] at hb
          subst hb
          exact hp.1 x hx)
        refine ⟨?_, i2⟩
        simp only [List.flatMap_cons, List.append_assoc]
        rw [i1]
        have : pend (reset (addDead v e.tid)) = pend (addDead v e.tid) := rfl
        rw [this]
        have hr : tids (reset (addDead v e.tid)).store = [] := rfl
        rw [hr, List.nil_append, ← List.append_assoc, a3]
        simp
      · rw [if_neg hf]
        obtain ⟨i1, i2⟩ := ih (addDead v e.tid) a1 hp.2 (by
          intro b hb x hx
          rw [a2] at hb
          simp only [Option.some.injEq] at hb
          subst hb
          exact hp.1 x hx)
        refine ⟨?_, i2⟩
        rw [i1, a3]
        simp
    · have hdt : deadTids (e :: es) = deadTids es := by
        simp [deadTids, List.filter_cons, hd]
      rw [if_neg hd, hdt]
      exact ih v h hp.2 fun b hb x hx => hle b hb x (by simp [hx])

/-- The rounds have the dead TIDs, each once and in order, or they are none. -/
theorem rounds_tids (full : Nat → Store → Bool) (bypass : Bool) (es : List Entry)
    (hp : es.Pairwise fun x y => x.tid.1 ≤ y.tid.1) :
    (rounds full bypass es).flatMap tids = deadTids es ∨
      (bypass = true ∧ rounds full bypass es = []) := by
  obtain ⟨h1, h2⟩ := scan_tids full es ⟨none, [], [], 0⟩
    ⟨rfl, fun _ => ⟨rfl, rfl⟩, fun _ h => absurd h (by simp)⟩ hp (fun _ h => absurd h (by simp))
  simp only [show tids ([] : Store) = [] from rfl, pend, List.nil_append] at h1
  unfold rounds
  simp only []
  by_cases hn : 0 < (scan full es ⟨none, [], [], 0⟩).2.num
  · rw [if_pos hn]
    by_cases hb : (bypass && (scan full es ⟨none, [], [], 0⟩).1.isEmpty) = true
    · rw [if_pos hb]
      rw [Bool.and_eq_true] at hb
      exact Or.inr ⟨hb.1, rfl⟩
    · rw [if_neg hb]
      left
      rw [← h1]
      simp
  · rw [if_neg hn]
    left
    have : tids (scan full es ⟨none, [], [], 0⟩).2.store = [] := by
      apply List.eq_nil_of_length_eq_zero
      omega
    rw [this, List.append_nil] at h1
    exact h1

theorem run_append (db : Db) (a b : List Ev) : run db (a ++ b) = run (run db a) b :=
  List.foldl_append ..

/-- The indexes of one round, the first `n` of them. -/
theorem run_indexes (s : Store) (db : Db) : ∀ n,
    (run db ((List.range n).map fun i => Ev.index i s)).bridge = db.bridge ∧
    ∀ j, (run db ((List.range n).map fun i => Ev.index i s)).indexes[j]? =
      db.indexes[j]?.map fun l => if j < n then l.filter fun t => decide (t ∉ tids s) else l := by
  intro n
  induction n with
  | zero => simp [run]
  | succ n ih =>
    rw [List.range_succ, List.map_append, run_append]
    refine ⟨ih.1, fun j => ?_⟩
    simp only [run, List.map_cons, List.map_nil, List.foldl_cons, List.foldl_nil, step] at ih ⊢
    rw [List.getElem?_modify, ih.2 j]
    cases db.indexes[j]? with
    | none => rfl
    | some l =>
      simp only [Option.map_some, Option.map_eq_map, Option.some.injEq]
      by_cases h : n = j
      · subst h
        simp
      · by_cases h' : j < n
        · rw [if_neg h, if_pos h', if_pos (by omega)]
        · rw [if_neg h, if_neg h', if_neg (by omega)]

/-- One round. -/
theorem run_round (s : Store) (db : Db) :
    run db ((List.range db.indexes.length).map (fun i => Ev.index i s) ++ [Ev.bridge s]) =
      ⟨db.indexes.map fun l => l.filter fun t => decide (t ∉ tids s),
        db.bridge.filter fun e => decide (e.tid ∉ tids s)⟩ := by
  obtain ⟨h1, h2⟩ := run_indexes s db db.indexes.length
  rw [run_append]
  have h3 : (run db ((List.range db.indexes.length).map fun i => Ev.index i s)).indexes =
      db.indexes.map fun l => l.filter fun t => decide (t ∉ tids s) := by
    apply List.ext_getElem?
    intro j
    rw [h2, List.getElem?_map]
    by_cases hj : j < db.indexes.length
    · simp only [if_pos hj]
    · rw [List.getElem?_eq_none (by omega)]
      rfl
  generalize run db ((List.range db.indexes.length).map fun i => Ev.index i s) = d at h1 h3
  simp only [run, List.foldl_cons, List.foldl_nil, step, h1, h3]

/-- All rounds. -/
theorem run_rounds (rs : List Store) : ∀ db : Db,
    run db (events db.indexes.length rs) =
      ⟨db.indexes.map fun l => l.filter fun t => decide (t ∉ rs.flatMap tids),
        db.bridge.filter fun e => decide (e.tid ∉ rs.flatMap tids)⟩ := by
  induction rs with
  | nil =>
    intro db
    have h1 : ∀ l : List Tid, l.filter (fun _ => true) = l := fun l => List.filter_eq_self.mpr (by simp)
    have h2 : ∀ l : List Entry, l.filter (fun _ => true) = l := fun l => List.filter_eq_self.mpr (by simp)
    simp [events, run, h1, h2]
  | cons s rs ih =>
    intro db
    have hl : db.indexes.length =
        (db.indexes.map fun l => l.filter fun t => decide (t ∉ tids s)).length := by simp
    have : events db.indexes.length (s :: rs) =
        ((List.range db.indexes.length).map (fun i => Ev.index i s) ++ [Ev.bridge s]) ++
          events db.indexes.length rs := by simp [events]
    rw [this, run_append, run_round]
    have h2 := ih ⟨db.indexes.map fun l => l.filter fun t => decide (t ∉ tids s),
      db.bridge.filter fun e => decide (e.tid ∉ tids s)⟩
    rw [← hl] at h2
    rw [h2]
    simp only [List.flatMap_cons, List.mem_append, List.map_map, List.filter_filter, not_or,
      Bool.decide_and, Function.comp_def]
    congr 1
    · apply List.map_congr_left
      intro l _
      apply List.filter_congr
      intro t _
      rw [Bool.and_comm]
    · apply List.filter_congr
      intro t _
      rw [Bool.and_comm]

theorem same_tid : ∀ es : List Entry, es.Pairwise (fun x y => x.tid ≠ y.tid) → ∀ x ∈ es, ∀ y ∈ es,
    x.tid = y.tid → x = y
  | [], _, x, hx, _, _, _ => absurd hx (by simp)
  | e :: es, hp, x, hx, y, hy, h => by
    rw [List.pairwise_cons] at hp
    rcases List.mem_cons.mp hx with h1 | h1 <;> rcases List.mem_cons.mp hy with h2 | h2
    · rw [h1, h2]
    · exact absurd (h1 ▸ h) (hp.1 y h2)
    · exact absurd (h2 ▸ h).symm (hp.1 x h1)
    · exact same_tid es hp.2 x h1 y h2 h

/-- **C145**: VACUUM removes from the bridge index exactly the entries deleted for everybody, and from
each bridged index exactly the entries that point to them, in however many rounds; or it is decided to
skip this, and nothing is changed. -/
theorem C145 (full : Nat → Store → Bool) (bypass : Bool) (idxs : List (List Tid)) (es : List Entry)
    (hs : es.Pairwise fun x y => x.tid.1 < y.tid.1 ∨ (x.tid.1 = y.tid.1 ∧ x.tid.2 < y.tid.2)) :
    run ⟨idxs, es⟩ (events idxs.length (rounds full bypass es)) =
        ⟨idxs.map fun l => l.filter fun t => !es.any fun e => e.dead && decide (e.tid = t),
          es.filter fun e => !e.dead⟩ ∨
      (bypass = true ∧ run ⟨idxs, es⟩ (events idxs.length (rounds full bypass es)) = ⟨idxs, es⟩) := by
  have h := run_rounds (rounds full bypass es) ⟨idxs, es⟩
  simp only [] at h
  rcases rounds_tids full bypass es (hs.imp (by intro a b h; omega)) with hr | ⟨hb, hr⟩
  · left
    rw [h, hr]
    congr 1
    · apply List.map_congr_left
      intro l _
      apply List.filter_congr
      intro t _
      rw [Bool.eq_iff_iff]
      simp [deadTids]
    · apply List.filter_congr
      intro e he
      rw [Bool.eq_iff_iff]
      rw [decide_eq_true_eq, Bool.not_eq_true']
      simp only [deadTids, List.mem_map, List.mem_filter, not_exists, not_and]
      constructor
      · intro h'
        cases hd : e.dead
        · rfl
        · exact absurd rfl (h' e ⟨he, hd⟩)
      · rintro hd x ⟨hx, hxd⟩ hxe
        have hne : x ≠ e := fun e' => by rw [e', hd] at hxd; exact absurd hxd (by simp)
        have hpw : es.Pairwise fun x y => x.tid ≠ y.tid := hs.imp (by
          intro a b h e'
          rw [e'] at h
          omega)
        exact hne (same_tid es hpw x hx e he hxe)
  · right
    rw [hr]
    exact ⟨hb, rfl⟩

/-- A bridge index of three blocks with live and dead entries and two bridged indexes.  If memory runs
out within the second block, the entries of the first block are removed in a first round. -/
theorem C145_case :
    let es : List Entry := [⟨(0, 1), true⟩, ⟨(0, 2), false⟩, ⟨(1, 1), true⟩, ⟨(1, 3), true⟩, ⟨(4, 1), false⟩]
    let full : Nat → Store → Bool := fun _ s => decide (s ≠ [])
    (es.Pairwise fun x y => x.tid.1 < y.tid.1 ∨ (x.tid.1 = y.tid.1 ∧ x.tid.2 < y.tid.2)) ∧
      rounds full true es = [[(0, [1])], [(1, [1, 3])]] ∧
      rounds (fun _ _ => false) false es = [[(0, [1]), (1, [1, 3])]] ∧
      rounds (fun _ _ => false) true es = [] ∧
      run ⟨[[(0, 1), (4, 1), (1, 3)], [(0, 2), (1, 1)]], es⟩ (events 2 (rounds full true es)) =
        ⟨[[(4, 1)], [(0, 2)]], [⟨(0, 2), false⟩, ⟨(4, 1), false⟩]⟩ := by
  decide

/-- Stores keep the order that `TidStoreSetBlockOffsets` asks for: the offsets of each block ascend. -/
theorem C145_offsets (full : Nat → Store → Bool) (bypass : Bool) (es : List Entry)
    (hs : es.Pairwise fun x y => x.tid.1 < y.tid.1 ∨ (x.tid.1 = y.tid.1 ∧ x.tid.2 < y.tid.2)) :
    ∀ s ∈ rounds full bypass es, ∀ x ∈ s, x.2.Pairwise fun a b => a < b := by
  intro s hm x hx
  rcases rounds_tids full bypass es (hs.imp (by intro a b h; omega)) with hr | ⟨_, hr⟩
  · have hd : (deadTids es).Pairwise fun x y => x.1 < y.1 ∨ (x.1 = y.1 ∧ x.2 < y.2) :=
      List.pairwise_map.mpr (hs.sublist List.filter_sublist)
    rw [← hr] at hd
    have h1 := (List.pairwise_flatMap.mp hd).1 s hm
    have h2 := (List.pairwise_flatMap.mp h1).1 x hx
    rw [List.pairwise_map] at h2
    exact h2.imp (by intro a b h; simp only [] at h; omega)
  · rw [hr] at hm
    exact absurd hm (by simp)

/-- No event adds anything. -/
theorem step_mono (db : Db) (ev : Ev) : (step db ev).indexes.length = db.indexes.length ∧
    (∀ (j : Nat) (l' : List Tid), (step db ev).indexes[j]? = some l' →
      ∃ l : List Tid, db.indexes[j]? = some l ∧ ∀ t ∈ l', t ∈ l) := by
  cases ev with
  | index i s =>
    refine ⟨by simp [step], fun j l' h => ?_⟩
    simp only [step, List.getElem?_modify] at h
    cases hj : db.indexes[j]? with
    | none => rw [hj] at h; exact absurd h (by simp)
    | some l =>
      rw [hj] at h
      simp only [Option.map_eq_map, Option.map_some, Option.some.injEq] at h
      refine ⟨l, rfl, fun t ht => ?_⟩
      rw [← h] at ht
      split at ht
      · exact (List.mem_filter.mp ht).1
      · exact ht
  | bridge s => exact ⟨rfl, fun j l' h => ⟨l', h, fun _ h => h⟩⟩

/-- What indexes point to. -/
def Points (db0 db : Db) : Prop :=
  db.indexes.length = db0.indexes.length ∧
    ∀ l ∈ db.indexes, ∀ t ∈ l, t ∈ db0.bridge.map Entry.tid → t ∈ db.bridge.map Entry.tid

theorem points_index {db0 db : Db} (h : Points db0 db) (i : Nat) (s : Store) :
    Points db0 (step db (.index i s)) := by
  refine ⟨(step_mono db _).1.trans h.1, fun l' hl' t ht h0 => ?_⟩
  obtain ⟨j, hj⟩ := List.mem_iff_getElem?.mp hl'
  obtain ⟨l, hl, hsub⟩ := (step_mono db _).2 j l' hj
  exact h.2 l (List.mem_iff_getElem?.mpr ⟨j, hl⟩) t (hsub t ht) h0

theorem points_indexes {db0 : Db} (is : List Nat) (s : Store) : ∀ db, Points db0 db →
    Points db0 (run db (is.map fun i => Ev.index i s)) := by
  induction is with
  | nil => intro db h; exact h
  | cons i is ih => intro db h; exact ih _ (points_index h i s)

theorem points_round {db0 db : Db} (h : Points db0 db) (s : Store) :
    Points db0 (run db ((List.range db0.indexes.length).map (fun i => Ev.index i s) ++
      [Ev.bridge s])) := by
  rw [← h.1, run_round]
  refine ⟨by simp [h.1], fun l' hl' t ht h0 => ?_⟩
  obtain ⟨l, hl, rfl⟩ := List.mem_map.mp hl'
  obtain ⟨ht1, ht2⟩ := List.mem_filter.mp ht
  obtain ⟨e, he, rfl⟩ := List.mem_map.mp (h.2 l hl t ht1 h0)
  exact List.mem_map.mpr ⟨e, List.mem_filter.mpr ⟨he, ht2⟩, rfl⟩

theorem points_events {db0 : Db} (rs : List Store) : ∀ db, Points db0 db → ∀ p,
    p <+: events db0.indexes.length rs → Points db0 (run db p) := by
  induction rs with
  | nil =>
    intro db h p hp
    rw [List.prefix_nil.mp hp]
    exact h
  | cons s rs ih =>
    intro db h p hp
    have : events db0.indexes.length (s :: rs) =
        ((List.range db0.indexes.length).map (fun i => Ev.index i s) ++ [Ev.bridge s]) ++
          events db0.indexes.length rs := by simp [events]
    rw [this] at hp
    rcases List.prefix_or_prefix_of_prefix hp (List.prefix_append _ _) with h1 | ⟨q, rfl⟩
    · rcases List.prefix_concat_iff.mp h1 with h2 | h2
      · rw [h2]
        exact points_round h s
      · rw [List.prefix_iff_eq_take.mp h2, ← List.map_take]
        exact points_indexes _ s db h
    · rw [run_append]
      exact ih _ (points_round h s) q ((List.prefix_append_right_inj _).mp hp)

/-- **C146**: at no point of a VACUUM, wherever it is broken off, an entry of a bridged index points to
an entry that was removed from the bridge index: such a TID could be given to another row. -/
theorem C146 (full : Nat → Store → Bool) (bypass : Bool) (idxs : List (List Tid)) (es : List Entry)
    (p : List Ev) (hp : p <+: events idxs.length (rounds full bypass es)) :
    ∀ l ∈ (run ⟨idxs, es⟩ p).indexes, ∀ t ∈ l, (∃ e ∈ es, e.tid = t) →
      ∃ e ∈ (run ⟨idxs, es⟩ p).bridge, e.tid = t := by
  have h := points_events (db0 := ⟨idxs, es⟩) _ ⟨idxs, es⟩ ⟨rfl, fun _ _ _ _ h => h⟩ p hp
  intro l hl t ht h0
  exact List.mem_map.mp (h.2 l hl t ht (List.mem_map.mpr h0))

/-- Broken off within the second round, after the first index. -/
theorem C146_case :
    let es : List Entry := [⟨(0, 1), true⟩, ⟨(1, 1), true⟩, ⟨(1, 3), false⟩]
    let full : Nat → Store → Bool := fun _ s => decide (s ≠ [])
    let evs := events 2 (rounds full true es)
    evs.length = 6 ∧ evs.take 4 <+: evs ∧
      run ⟨[[(0, 1), (1, 1)], [(1, 1), (1, 3)]], es⟩ (evs.take 4) =
        ⟨[[], [(1, 1), (1, 3)]], [⟨(1, 1), true⟩, ⟨(1, 3), false⟩]⟩ :=
  ⟨by decide, List.take_prefix _ _, by decide⟩

end Verif.BridgeVacuum
