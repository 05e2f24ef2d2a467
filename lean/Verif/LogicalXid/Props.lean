import Verif.LogicalXid.Step

/-!
# C18: logical transaction ids are unique and reusable
-/

set_option linter.unusedSimpArgs false

namespace Verif.LogicalXid

/-! ## Uniqueness -/

theorem count_filter_le {d x : Nat} : ∀ (l : List Nat),
    (l.filter (· ≠ 0)).count x ≤ (l.map (one d (x % d))).sum := by
  intro l
  induction l with
  | nil => simp
  | cons y l ih =>
    by_cases hy : y ≠ 0
    · rw [List.filter_cons_of_pos (by simpa using hy), List.count_cons, List.map_cons,
        List.sum_cons]
      by_cases e : y = x
      · subst e
        have : one d (y % d) y = 1 := by simp [one, hy]
        rw [this]; simp only [beq_self_eq_true, if_true]; omega
      · have : (y == x) = false := by simpa using e
        simp only [this, Bool.false_eq_true, if_false]; omega
    · rw [List.filter_cons_of_neg (by simpa using hy), List.map_cons, List.sum_cons]
      omega

theorem owned_count_le {d x : Nat} (pr : Proc) : (owned pr).count x ≤ cnt d (x % d) pr := by
  unfold owned
  refine Nat.le_trans (count_filter_le (d := d) _) ?_
  rw [List.map_append, List.sum_append, List.map_append, List.sum_append, List.map_map,
    List.map_map]
  unfold cnt
  have e1 : (one d (x % d) ∘ fun (e : Nat × Nat) => e.1) = fun e => one d (x % d) e.1 := rfl
  have e2 : (one d (x % d) ∘ fun (e : Bool × Nat) => e.2) = fun e => one d (x % d) e.2 := rfl
  rw [e1, e2]
  cases handedBack pr <;> simp <;> omega

theorem owned_nodup {items : Nat} {s : St} (hi : 0 < items) (h : Inv items s) :
    (s.procs.flatMap owned).Nodup := by
  rw [List.nodup_iff_count]
  intro x
  rw [List.count_flatMap]
  have hm : x % (items * 32) < items * 32 := Nat.mod_lt _ (by omega)
  have hb := h.bal _ hm
  have hle : ∀ (l : List Proc), (l.map (List.count x ∘ owned)).sum ≤
      total (items * 32) (x % (items * 32)) l := by
    intro l
    induction l with
    | nil => simp [total]
    | cons a l ih =>
      simp only [total, List.map_cons, List.sum_cons] at ih ⊢
      have := owned_count_le (d := items * 32) (x := x) a
      simp only [Function.comp] at ih ⊢
      omega
  refine Nat.le_trans (hle _) ?_
  rw [hb]; split <;> omega

/-- **C18** (partial): in every reachable state, for any number of processes and any
history, no id is owned twice: neither by two processes nor twice by one.  Missing: an
id that the end of a subtransaction has already handed back while the process goes on
using it (`handedBack`). -/
theorem C18_unique_partial {items n : Nat} {s : St} (hit : Items items) (h : Reach items n s) :
    (s.procs.flatMap owned).Nodup :=
  owned_nodup hit.range.1 (reach_inv hit h)

/-- **C18** (partial): whenever no process is in that window, all ids in use are
different. -/
theorem C18_settled_partial {items n : Nat} {s : St} (hit : Items items) (h : Reach items n s)
    (hq : ∀ pr ∈ s.procs, handedBack pr = false) : UniqueIds s := by
  have h1 := C18_unique_partial hit h
  have e : s.procs.flatMap owned = s.procs.flatMap alive := by
    rw [List.flatMap_def, List.flatMap_def]
    congr 1
    apply List.map_congr_left
    intro pr hpr
    simp [owned, alive, hq pr hpr]
  rw [e] at h1
  exact h1

/-- Ids are normal 32-bit transaction ids whatever `RecentXmin` is, and the position in
the map can be recovered from the id. -/
theorem C18_id_range {items xmin num : Nat} (hit : Items items) (hx : xmin < 4294967296)
    (hn : num < items * 32) :
    logicalId (items * 32) xmin num % (items * 32) = num ∧
    3 ≤ logicalId (items * 32) xmin num ∧ logicalId (items * 32) xmin num < 4294967296 :=
  have hr := hit.range
  logicalId_spec (by omega) (by omega) hx hn

-- the wraparound branch is met: RecentXmin just after the wrap
example : logicalId 65536 3 5 = 4294901765 := by decide
example : logicalId 65536 10 9 = 4294836233 := by decide
example : logicalId 65536 70000 5 = 65541 := by decide

/-! ## The window -/

/-- Start a subtransaction and run to the end of the callback. -/
def sub (p n x : Nat) : List (Nat × Act) :=
  [(p, .subStart n true), (p, .step x), (p, .step x), (p, .step x), (p, .step x)]

/-- Session 1 runs `BEGIN; INSERT; SAVEPOINT s; INSERT` and commits the savepoint in a
transaction which has a heap xid.  Session 0 has 31 savepoints open and opens one more
while session 1 has released the savepoint's id but not yet written its last record. -/
def clash : List (Nat × Act) :=
  [(1, .getOxid), (1, .step 1000000), (1, .step 1000000)] ++ sub 1 5 1000000 ++ [(1, .write)] ++
  [(0, .getOxid), (0, .step 1000000), (0, .step 1000000)] ++
  (List.range 31).flatMap (fun n => sub 0 (n + 2) 1000000) ++
  [(1, .subCommit 5 true true), (1, .step 1000000)] ++
  sub 0 33 1000000 ++ [(0, .step 1000000), (0, .write), (1, .step 1000000)]

theorem clash_legal : Legal clash := by
  have h : ∀ e ∈ clash, ∀ x, e.2 = .step x → x < 4294967296 := by
    have : clash.all (fun e => match e.2 with | .step x => decide (x < 4294967296) | _ => true)
        = true := by decide
    rw [List.all_eq_true] at this
    intro e he x hx
    have := this e he
    rw [hx] at this
    simpa using this
  intro p x hm
  exact h _ hm x rfl

set_option maxRecDepth 100000 in
theorem clash_end : (run (init 2048 2) clash).wal =
      [(1, 983073), (0, 983073), (1, 983073)] ∧
    (run (init 2048 2) clash).procs.map (fun pr => pr.ctx) = [983073, 983073] := by
  decide

/-- **C18 is violated**: a subtransaction's id is handed back before the records that
carry it are written (src/transam/oxid.c:689 before 691-713), so another session can be
given the same id in between: both sessions use the id at once and their records with
it interleave in the WAL. -/
theorem C18_violated : ∃ s, Reach 2048 2 s ∧ ¬ UniqueIds s ∧
    ∃ x, s.wal = [(1, x), (0, x), (1, x)] := by
  refine ⟨run (init 2048 2) clash, ⟨clash, clash_legal, rfl⟩, ?_, 983073, clash_end.1⟩
  intro hu
  have h := clash_end.2
  unfold UniqueIds at hu
  cases hp : (run (init 2048 2) clash).procs with
  | nil => rw [hp] at h; simp at h
  | cons a l =>
    cases hl : l with
    | nil => rw [hp, hl] at h; simp at h
    | cons b l' =>
      rw [hp, hl] at h hu
      simp only [List.map_cons, List.cons.injEq] at h
      have ha : 983073 ∈ alive a := by simp [alive, h.1]
      have hb : 983073 ∈ alive b := by simp [alive, h.2.1]
      rw [List.flatMap_cons, List.nodup_append] at hu
      exact hu.2.2 983073 ha 983073 (by simp [hb]) rfl

/-! ## Reuse -/

/-- A bit of the map is set exactly when some process owns an id at that position: an id
handed back is free again and none leaks. -/
theorem C18_no_leak {items n : Nat} {s : St} (hit : Items items) (h : Reach items n s)
    {m : Nat} (hm : m < items * 32) :
    bitOf s.map m = true ↔ ∃ pr ∈ s.procs, ∃ x ∈ owned pr, x % (items * 32) = m := by
  have hinv := reach_inv hit h
  have hb := hinv.bal m hm
  have key : ∀ (pr : Proc), 0 < cnt (items * 32) m pr ↔ ∃ x ∈ owned pr, x % (items * 32) = m := by
    intro pr
    have hl : ∀ (l : List Nat), 0 < (l.map (one (items * 32) m)).sum ↔
        ∃ x ∈ l.filter (· ≠ 0), x % (items * 32) = m := by
      intro l
      induction l with
      | nil => simp
      | cons y l ih =>
        rw [List.map_cons, List.sum_cons]
        by_cases hy : y ≠ 0 ∧ y % (items * 32) = m
        · constructor
          · intro _; exact ⟨y, by simp [hy.1], hy.2⟩
          · intro _; have : one (items * 32) m y = 1 := by simp only [one, if_pos hy]
            omega
        · have h0 : one (items * 32) m y = 0 := by simp only [one, if_neg hy]
          rw [h0, Nat.zero_add, ih]
          constructor
          · rintro ⟨x, hx, e⟩
            refine ⟨x, ?_, e⟩
            rw [List.mem_filter] at hx ⊢
            exact ⟨List.mem_cons_of_mem _ hx.1, hx.2⟩
          · rintro ⟨x, hx, e⟩
            rw [List.mem_filter, List.mem_cons] at hx
            rcases hx with ⟨rfl | hx, h2⟩
            · exact absurd ⟨by simpa using h2, e⟩ hy
            · exact ⟨x, List.mem_filter.mpr ⟨hx, h2⟩, e⟩
    have he : cnt (items * 32) m pr = (((if handedBack pr then [] else [pr.ctx]) ++
        (pr.stack.map (·.1) ++ pr.saved.map (·.2))).map (one (items * 32) m)).sum := by
      rw [List.map_append, List.sum_append, List.map_append, List.sum_append, List.map_map,
        List.map_map]
      unfold cnt
      have e1 : (one (items * 32) m ∘ fun (e : Nat × Nat) => e.1) =
        fun e => one (items * 32) m e.1 := rfl
      have e2 : (one (items * 32) m ∘ fun (e : Bool × Nat) => e.2) =
        fun e => one (items * 32) m e.2 := rfl
      rw [e1, e2]
      cases handedBack pr <;> simp <;> omega
    rw [he]
    exact hl _
  have htot : ∀ (l : List Proc), 0 < total (items * 32) m l ↔
      ∃ pr ∈ l, 0 < cnt (items * 32) m pr := by
    intro l
    induction l with
    | nil => simp [total]
    | cons a l ih =>
      simp only [total, List.map_cons, List.sum_cons, List.mem_cons] at ih ⊢
      constructor
      · intro h
        by_cases h1 : 0 < cnt (items * 32) m a
        · exact ⟨a, Or.inl rfl, h1⟩
        · obtain ⟨b, hb, h2⟩ := ih.mp (by omega)
          exact ⟨b, Or.inr hb, h2⟩
      · rintro ⟨b, rfl | hb, h2⟩
        · omega
        · have := ih.mpr ⟨b, hb, h2⟩; omega
  constructor
  · intro hbit
    rw [hbit] at hb
    obtain ⟨pr, hpr, hc⟩ := (htot s.procs).mp (by rw [hb]; simp)
    exact ⟨pr, hpr, (key pr).mp hc⟩
  · rintro ⟨pr, hpr, hx⟩
    have := (htot s.procs).mpr ⟨pr, hpr, (key pr).mpr hx⟩
    cases e : bitOf s.map m with
    | true => rfl
    | false => rw [e] at hb; simp at hb; omega


/-! ### Finishing a transaction -/

/-- Process `p` alone performs `k` steps. -/
def alone (p x k : Nat) : List (Nat × Act) := List.replicate k (p, .step x)

theorem run_append (s : St) (a b : List (Nat × Act)) : run s (a ++ b) = run (run s a) b := by
  induction a generalizing s with
  | nil => rfl
  | cons e a ih => obtain ⟨p, c⟩ := e; rw [List.cons_append, run, run, ih]

/-- The steps of `release_assigned_logical_xids`. -/
theorem releaseAll_run {p x : Nat} : ∀ (k : Nat) (s : St) (pr : Proc),
    s.procs[p]? = some pr → pr.todo = [.releaseAll] → pr.saved = [] →
    (if pr.ctx = 0 then 0 else 1) + pr.stack.length + 1 ≤ k →
    ∃ pr', (run s (alone p x k)).procs[p]? = some pr' ∧ pr'.todo = [] ∧
      pr'.oxid = pr.oxid ∧ alive pr' = [] := by
  intro k
  induction k with
  | zero => intro s pr _ _ _ h; omega
  | succ k ih =>
    intro s pr hp ht hsv hk
    have hlt : p < s.procs.length := by
      rcases Nat.lt_or_ge p s.procs.length with h | h
      · exact h
      · rw [List.getElem?_eq_none h] at hp; cases hp
    have hrun : run s (alone p x (k + 1)) = run (exec s p (.step x)) (alone p x k) := by
      rw [alone, List.replicate_succ, run]; rfl
    rw [hrun]
    have hex : exec s p (.step x) = afterStep s p (stepTask s p x pr [] .releaseAll) := by
      simp only [exec, hp, ht]; rfl
    rw [hex]
    by_cases hc : pr.ctx = 0
    · cases hst : pr.stack with
      | nil =>
        have hstep : stepTask s p x pr [] .releaseAll = (s.map, { pr with todo := [] }, none) := by
          simp [stepTask, hc, hsv, hst]
        rw [hstep]
        -- the remaining steps do nothing
        have hidle : ∀ (k : Nat) (s : St) (q : Proc), s.procs[p]? = some q → q.todo = [] →
            run s (alone p x k) = s := by
          intro k
          induction k with
          | zero => intro s q _ _; rfl
          | succ k ihk =>
            intro s q hq hqt
            have e : exec s p (.step x) = s := by simp only [exec, hq, hqt]
            rw [alone, List.replicate_succ, run, e]
            exact ihk s q hq hqt
        have hget : (afterStep s p (s.map, { pr with todo := [] }, none)).procs[p]? =
            some { pr with todo := [] } := by
          show (s.procs.set p _)[p]? = _
          rw [List.getElem?_set_self hlt]
        rw [hidle k _ _ hget rfl]
        exact ⟨_, hget, rfl, rfl, by simp [alive, hc, hst, hsv]⟩
      | cons e es =>
        have hget : ∀ mp : List Nat, (afterStep s p (mp, { pr with stack := es }, none)).procs[p]? =
            some { pr with stack := es } := by
          intro mp
          show (s.procs.set p _)[p]? = _
          rw [List.getElem?_set_self hlt]
        have hk' : (if pr.ctx = 0 then 0 else 1) + es.length + 1 ≤ k := by
          rw [hst, List.length_cons] at hk; omega
        have hmp : ∃ mp, stepTask s p x pr [] .releaseAll =
            (mp, { pr with stack := es }, none) := by
          by_cases he : e.1 ≠ 0
          · exact ⟨clearId s e.1, by simp [stepTask, hc, hsv, hst, he]⟩
          · exact ⟨s.map, by simp only [Decidable.not_not] at he; simp [stepTask, hc, hsv, hst, he]⟩
        obtain ⟨mp, hmp⟩ := hmp
        rw [hmp]
        exact ih _ { pr with stack := es } (hget mp) ht hsv hk'
    · have hget : (afterStep s p (clearId s pr.ctx, { pr with ctx := 0 }, none)).procs[p]? =
          some { pr with ctx := 0 } := by
        show (s.procs.set p _)[p]? = _
        rw [List.getElem?_set_self hlt]
      have hstep : stepTask s p x pr [] .releaseAll =
          (clearId s pr.ctx, { pr with ctx := 0 }, none) := by
        simp [stepTask, hc]
      rw [hstep]
      refine ih _ { pr with ctx := 0 } hget ht hsv ?_
      rw [if_neg hc] at hk
      show (if (0 : Nat) = 0 then 0 else 1) + pr.stack.length + 1 ≤ k
      rw [if_pos rfl]
      omega

/-- **C18**, second half: when a transaction finishes, committed or aborted and with any
number of subtransactions open, all its ids are handed back. -/
theorem C18_finish_releases {s : St} {p x : Nat} {pr : Proc} (hp : s.procs[p]? = some pr)
    (ht : pr.todo = []) (ho : pr.oxid = true) (hsv : pr.saved = []) :
    ∃ k pr', (run s ((p, .finish) :: alone p x k)).procs[p]? = some pr' ∧ pr'.todo = [] ∧
      pr'.oxid = false ∧ alive pr' = [] := by
  have hlt : p < s.procs.length := by
    rcases Nat.lt_or_ge p s.procs.length with h | h
    · exact h
    · rw [List.getElem?_eq_none h] at hp; cases hp
  have hex : exec s p .finish = { s with procs := s.procs.set p { pr with
                                        oxid := false
                                        todo := [.releaseAll] } } := by
    simp only [exec, hp, ht, begin, ho, if_true]
  refine ⟨1 + pr.stack.length + 1, ?_⟩
  rw [run, hex]
  obtain ⟨pr', h1, h2, h3, h4⟩ := releaseAll_run (p := p) (x := x) (1 + pr.stack.length + 1)
    { s with procs := s.procs.set p { pr with
                                        oxid := false
                                        todo := [.releaseAll] } }
    { pr with
      oxid := false
      todo := [.releaseAll] } (by simp [List.getElem?_set_self hlt]) rfl hsv
      (by dsimp only; split <;> omega)
  exact ⟨pr', h1, h2, h3, h4⟩

/-! ### A free id is found -/

/-- The id a process that starts a transaction gets is one nobody owned. -/
theorem take_run {items p x i k b : Nat} {s : St} {pr : Proc} (hp : s.procs[p]? = some pr)
    (ht : pr.todo = [.take .ctx i k b]) (hb : (s.map[i]?.getD 0) &&& b = 0)
    (hl : s.map.length = items) :
    ∃ pr', (exec s p (.step x)).procs[p]? = some pr' ∧ pr'.todo = [] ∧
      pr'.oxid = pr.oxid ∧ pr'.ctx = logicalId (items * 32) x (i * 32 + b.log2) := by
  have hlt : p < s.procs.length := by
    rcases Nat.lt_or_ge p s.procs.length with h | h
    · exact h
    · rw [List.getElem?_eq_none h] at hp; cases hp
  simp only [exec, hp, ht, stepTask, if_pos hb, store]
  rw [List.getElem?_set_self hlt]
  refine ⟨_, rfl, rfl, rfl, ?_⟩
  simp [St.divider, hl]

/-- A word with a free bit: two steps. -/
theorem scan_hit {items p x i k : Nat} {s0 s : St} {pr : Proc} (hit : Items items)
    (hinv : Inv items s0) (hx : x < 4294967296) (hm : s.map = s0.map)
    (hp : s.procs[p]? = some pr) (ht : pr.todo = [.scan .ctx i k]) (hi : i < items)
    (hfree : s0.map[i]?.getD 0 ≠ ones) :
    ∃ c pr', (run s (alone p x c)).procs[p]? = some pr' ∧ pr'.todo = [] ∧
      pr'.oxid = pr.oxid ∧ pr'.ctx ≠ 0 ∧ bitOf s0.map (pr'.ctx % (items * 32)) = false := by
  have hlt : p < s.procs.length := by
    rcases Nat.lt_or_ge p s.procs.length with h | h
    · exact h
    · rw [List.getElem?_eq_none h] at hp; cases hp
  rcases lowZero_spec _ (word_lt hinv i) with ⟨e, _⟩ | ⟨b, hb, htb, hlz⟩
  · exact absurd e hfree
  have hz : lowZero (s.map[i]?.getD 0) ≠ 0 := by
    rw [hm, hlz]; exact Nat.ne_of_gt (Nat.two_pow_pos b)
  have hex : exec s p (.step x) = ⟨s.map, s.procs.set p ({ pr with todo := [.take .ctx i k (2 ^ b)] } : Proc), s.wal⟩ := by
    simp only [exec, hp, ht, stepTask, if_neg hz]
    rw [hm, hlz]
  obtain ⟨pr', h1, h2, hox, h3⟩ := take_run (items := items) (p := p) (x := x) (i := i) (k := k)
    (b := 2 ^ b) (s := exec s p (.step x)) (pr := { pr with todo := [.take .ctx i k (2 ^ b)] })
    (by rw [hex]; simp [List.getElem?_set_self hlt]) rfl
    (by rw [hex]; show (s.map[i]?.getD 0) &&& 2 ^ b = 0; rw [hm]; exact word_and_two_pow.mpr htb)
    (by rw [hex]; show s.map.length = items; rw [hm]; exact hinv.len)
  rw [Nat.log2_two_pow] at h3
  have hid := C18_id_range (xmin := x) (num := i * 32 + b) hit hx (by omega)
  refine ⟨2, pr', ?_, h2, hox, by rw [h3]; omega, ?_⟩
  · show (run s [(p, .step x), (p, .step x)]).procs[p]? = _
    exact h1
  · rw [h3, hid.1]
    unfold bitOf
    have a1 : (i * 32 + b) / 32 = i := by omega
    have a2 : (i * 32 + b) % 32 = b := by omega
    rw [a1, a2]; exact htb

/-- The search for a free bit. -/
theorem scan_run {items p x j : Nat} {s0 : St} (hit : Items items) (hinv : Inv items s0)
    (hx : x < 4294967296) (hj : j < items) (hfree : s0.map[j]?.getD 0 ≠ ones) :
    ∀ (n i k : Nat) (s : St) (pr : Proc), s.map = s0.map → s.procs[p]? = some pr →
      pr.todo = [.scan .ctx i k] → i < items →
      ((i ≤ j ∧ n = j - i ∧ k ≤ 16) ∨ (j < i ∧ n = items - i + j ∧ k ≤ 15)) →
      ∃ c pr', (run s (alone p x c)).procs[p]? = some pr' ∧ pr'.todo = [] ∧
        pr'.oxid = pr.oxid ∧ pr'.ctx ≠ 0 ∧ bitOf s0.map (pr'.ctx % (items * 32)) = false := by
  intro n
  induction n with
  | zero =>
    intro i k s pr hm hp ht hi hn
    have e : i = j := by omega
    subst e
    exact (scan_hit hit hinv hx hm hp ht hi hfree)
  | succ n ih =>
    intro i k s pr hm hp ht hi hn
    by_cases hw : s0.map[i]?.getD 0 = ones
    · -- the word is full: go on to the next
      have hlt : p < s.procs.length := by
        rcases Nat.lt_or_ge p s.procs.length with h | h
        · exact h
        · rw [List.getElem?_eq_none h] at hp; cases hp
      have hz : lowZero (s.map[i]?.getD 0) = 0 := by rw [hm, hw]; decide
      have hlen : s.items = items := by rw [St.items, hm]; exact hinv.len
      by_cases h1 : i + 1 ≥ items
      · have hk : ¬ k + 1 > 16 := by omega
        have hex : exec s p (.step x) = ⟨s.map, s.procs.set p ({ pr with todo := [.scan .ctx 0 (k + 1)] } : Proc), s.wal⟩ := by
          simp only [exec, hp, ht, stepTask, if_pos hz, hlen, if_pos h1, if_neg hk]
        obtain ⟨c, pr', h2⟩ := ih 0 (k + 1) (exec s p (.step x)) { pr with todo := [.scan .ctx 0 (k + 1)] }
          (by rw [hex]; exact hm) (by rw [hex]; simp [List.getElem?_set_self hlt]) rfl (by omega)
          (by omega)
        refine ⟨c + 1, pr', ?_⟩
        rw [alone, List.replicate_succ, run]
        exact h2
      · have hex : exec s p (.step x) = ⟨s.map, s.procs.set p ({ pr with todo := [.scan .ctx (i + 1) k] } : Proc), s.wal⟩ := by
          simp only [exec, hp, ht, stepTask, if_pos hz, hlen, if_neg h1]
        have hne : i ≠ j := by intro e; subst e; exact hfree hw
        obtain ⟨c, pr', h2⟩ := ih (i + 1) k (exec s p (.step x)) { pr with todo := [.scan .ctx (i + 1) k] }
          (by rw [hex]; exact hm) (by rw [hex]; simp [List.getElem?_set_self hlt]) rfl (by omega)
          (by omega)
        refine ⟨c + 1, pr', ?_⟩
        rw [alone, List.replicate_succ, run]
        exact h2
    · exact scan_hit hit hinv hx hm hp ht hi hw

/-- **C18**, second half: if any id is free, a process starting a transaction while the
others pause gets one, and it is one that was free. -/
theorem C18_free_id_found {items n p x m : Nat} {s : St} {pr : Proc} (hit : Items items)
    (h : Reach items n s) (hx : x < 4294967296) (hp : s.procs[p]? = some pr)
    (ht : pr.todo = []) (ho : pr.oxid = false) (hsv : pr.saved = [])
    (hm : m < items * 32) (hfree : bitOf s.map m = false) :
    ∃ c pr', (run s ((p, .getOxid) :: alone p x c)).procs[p]? = some pr' ∧ pr'.todo = [] ∧
      pr'.oxid = true ∧ pr'.ctx ≠ 0 ∧ bitOf s.map (pr'.ctx % (items * 32)) = false := by
  have hinv := reach_inv hit h
  have hr := hit.range
  have hlt : p < s.procs.length := by
    rcases Nat.lt_or_ge p s.procs.length with h | h
    · exact h
    · rw [List.getElem?_eq_none h] at hp; cases hp
  have hw : s.map[m / 32]?.getD 0 ≠ ones := by
    intro e
    rw [bitOf, e] at hfree
    have : ones = 2 ^ 32 - 1 := rfl
    rw [this, Nat.testBit_two_pow_sub_one] at hfree
    simp at hfree
    omega
  have hlen : s.items = items := hinv.len
  have hex : exec s p .getOxid = ⟨s.map, s.procs.set p ({ pr with
      oxid := true
      todo := [.scan .ctx (p % items) 0] } : Proc), s.wal⟩ := by
    simp only [exec, hp, ht, begin, beginOxid, ho, hsv, List.isEmpty_nil, startTask, hlen]
    simp
  have hi : p % items < items := Nat.mod_lt _ hr.1
  obtain ⟨c, pr', h1, h2, h3, h4, h5⟩ := scan_run (p := p) (x := x) (j := m / 32) hit hinv hx
    (by omega) hw
    (if p % items ≤ m / 32 then m / 32 - p % items else items - p % items + m / 32)
    (p % items) 0 (exec s p .getOxid) { pr with
      oxid := true
      todo := [.scan .ctx (p % items) 0] } (by rw [hex])
      (by rw [hex]; simp [List.getElem?_set_self hlt]) rfl hi (by split <;> omega)
  exact ⟨c, pr', h1, h2, h3, h4, h5⟩

-- the hypotheses are met: two sessions, one inside a transaction with an open savepoint
def busy : List (Nat × Act) :=
  [(1, .getOxid), (1, .step 5), (1, .step 5)] ++ sub 1 7 5

set_option maxRecDepth 100000 in
example : (run (init 2048 2) busy).procs =
    [{}, { oxid := true, ctx := 4294836257, stack := [(4294836256, 7)] }] := by decide

set_option maxRecDepth 100000 in
example : (run (init 2048 2) (busy ++ (1, .finish) :: alone 1 5 3)).procs = [{}, {}] := by decide

set_option maxRecDepth 100000 in
example : bitOf (run (init 2048 2) busy).map 0 = false ∧
    bitOf (run (init 2048 2) busy).map 33 = true := by decide

/-! ### The end of a subtransaction -/

/-- The ids of the open (sub)transactions of a process, outermost first; a
subtransaction is named by its number. -/
def idsOf (pr : Proc) : List (Option Nat × Nat) :=
  (none :: pr.stack.map (fun e => some e.2)).zip (pr.stack.map (·.1) ++ [pr.ctx])

theorem idle_run {p x : Nat} {pr : Proc} : ∀ (k : Nat) {s : St}, s.procs[p]? = some pr →
    pr.todo = [] → run s (alone p x k) = s := by
  intro k
  induction k with
  | zero => intro s _ _; rfl
  | succ k ih =>
    intro s hp ht
    rw [alone, List.replicate_succ, run]
    have : exec s p (.step x) = s := by simp only [exec, hp, ht]
    rw [this]; exact ih hp ht

theorem set_same {p : Nat} {pr : Proc} {l : List Proc} (h : l[p]? = some pr) : l.set p pr = l := by
  apply List.ext_getElem?
  intro i
  rw [List.getElem?_set]
  split
  · next e =>
    subst e
    split
    · exact h.symm
    · next hl => rw [List.getElem?_eq_none (by omega)] at h; cases h
  · rfl

theorem pushed_ids {pr : Proc} {n : Nat} (h : pushedBy pr n = true) :
    ∃ l c, pr.stack = l ++ [(c, n)] := by
  unfold pushedBy at h
  cases hl : pr.stack.getLast? with
  | none => rw [hl] at h; cases h
  | some e =>
    rw [hl] at h
    have he : e.2 = n := by simpa using h
    obtain ⟨c, m⟩ := e
    dsimp only at he
    subst he
    refine ⟨pr.stack.dropLast, c, ?_⟩
    have hne : pr.stack ≠ [] := by intro e; rw [e] at hl; cases hl
    rw [List.getLast?_eq_some_getLast hne, Option.some.injEq] at hl
    rw [← hl]
    exact (List.dropLast_concat_getLast hne).symm

theorem idsOf_push (l : List (Nat × Nat)) (c n : Nat) (pr : Proc) (h : pr.stack = l ++ [(c, n)]) :
    idsOf pr = idsOf { pr with
                       stack := l
                       ctx := c } ++ [(some n, pr.ctx)] := by
  unfold idsOf
  rw [h]
  dsimp only
  rw [List.map_append, List.map_append, ← List.cons_append]
  rw [List.zip_append (by simp)]
  simp

/-- **C18**: the end of subtransaction `n`, committed or aborted, leaves the ids of the
enclosing transaction and of all other open subtransactions as they were. -/
theorem C18_sub_end {s : St} {p x n : Nat} {pr : Proc} {a : Act} (hp : s.procs[p]? = some pr)
    (ht : pr.todo = []) (ha : (∃ r, a = .subAbort n r) ∨ ∃ r h, a = .subCommit n r h) :
    ∃ pr', (run s ((p, a) :: alone p x 3)).procs[p]? = some pr' ∧ pr'.todo = [] ∧
      (idsOf pr').filter (fun e => e.1 ≠ some n) = (idsOf pr).filter (fun e => e.1 ≠ some n) := by
  have hlt : p < s.procs.length := by
    rcases Nat.lt_or_ge p s.procs.length with h | h
    · exact h
    · rw [List.getElem?_eq_none h] at hp; cases hp
  -- nothing to do
  have hno : ∀ s', s' = s → ∃ pr', (run s' (alone p x 3)).procs[p]? = some pr' ∧ pr'.todo = [] ∧
      (idsOf pr').filter (fun e => e.1 ≠ some n) = (idsOf pr).filter (fun e => e.1 ≠ some n) := by
    intro s' e; subst e
    refine ⟨pr, ?_, ht, rfl⟩
    rw [idle_run 3 hp ht]; exact hp
  -- the release
  have hyes : ∀ heap, pushedBy pr n = true → ∃ pr',
      (run ⟨s.map, s.procs.set p ({ pr with todo := [.releaseSub n heap] } : Proc), s.wal⟩
        (alone p x 3)).procs[p]? = some pr' ∧ pr'.todo = [] ∧
      (idsOf pr').filter (fun e => e.1 ≠ some n) = (idsOf pr).filter (fun e => e.1 ≠ some n) := by
    intro heap hpush
    obtain ⟨l, c, hst⟩ := pushed_ids hpush
    refine ⟨{ pr with
              ctx := c
              stack := l
              todo := [] }, ?_, rfl, ?_⟩
    · cases heap <;>
        simp [alone, List.replicate, run, exec, List.getElem?_set_self, hlt, stepTask, hst]
    · rw [idsOf_push l c n pr hst, List.filter_append]
      simp [idsOf]
  rw [run]
  rcases ha with ⟨r, rfl⟩ | ⟨r, h, rfl⟩
  · by_cases hc : r ∧ pr.ctx ≠ 0 ∧ pushedBy pr n = true
    · have : exec s p (.subAbort n r) =
          ⟨s.map, s.procs.set p ({ pr with todo := [.releaseSub n false] } : Proc), s.wal⟩ := by
        simp only [exec, hp, ht, begin, if_pos hc]
      rw [this]; exact hyes false hc.2.2
    · refine hno _ ?_
      simp only [exec, hp, ht, begin, if_neg hc, set_same hp]
  · by_cases hc : r ∧ pr.ctx ≠ 0 ∧ pushedBy pr n = true
    · have : exec s p (.subCommit n r h) =
          ⟨s.map, s.procs.set p ({ pr with todo := [.releaseSub n h] } : Proc), s.wal⟩ := by
        simp only [exec, hp, ht, begin, if_pos hc]
      rw [this]; exact hyes h hc.2.2
    · refine hno _ ?_
      simp only [exec, hp, ht, begin, if_neg hc, set_same hp]

-- a savepoint set before the first change (number 3) ends inside one set after it (7)
example : idsOf { oxid := true, ctx := 11, stack := [(10, 7)] } = [(none, 10), (some 7, 11)] := by
  decide

/-! ## C47: logical ids and heap transactions -/

/-- **C47**: an id is never that of a heap transaction which may still be running: all of
those are at or after `RecentXmin` in the circular order (`t` is the distance, less than
half of the id space). -/
theorem C47_not_running {items xmin num t : Nat} (hit : Items items) (h3 : 3 ≤ xmin)
    (hx : xmin < 4294967296) (hn : num < items * 32) (ht : t < 2147483648) :
    (xmin + t) % 4294967296 ≠ logicalId (items * 32) xmin num := by
  have hr := hit.range
  generalize hd : items * 32 = d at *
  have hd0 : 0 < d := by omega
  have hd2 : d ≤ 67108864 := by omega
  unfold logicalId
  have hrr : retreat xmin = if xmin ≤ 3 then 4294967295 else xmin - 1 := rfl
  have hrd : retreat xmin % d < d := Nat.mod_lt _ hd0
  have hq : 4294967295 % d < d := Nat.mod_lt _ hd0
  dsimp only
  have ho : ones = 4294967295 := rfl
  rw [ho]
  generalize retreat xmin % d = a at *
  generalize 4294967295 % d = b at *
  generalize retreat xmin = r at *
  clear ho
  split at hrr <;> split <;> split <;> omega

example : logicalId 65536 1000000 33 = 983073 := by decide

end Verif.LogicalXid
