import Verif.Workers.Safe
/-!
# The order in which transactions are settled
-/

namespace Verif.Workers

/-- The startup process waits for the workers at the end of the transaction. -/
def sync (c : Cfg) (e : Nat × Bool) : Bool := c.sys e.1 || c.ckpt e.1

/-- The transactions the startup process is about to settle or to note. -/
def owed : List Act → List (Nat × Bool)
  | [] => []
  | .note x _ ok :: as => (x, ok) :: owed as
  | .now _ x ok :: as => (x, ok) :: owed as
  | .flush _ :: as => owed as
  | .ptr _ :: as => owed as
  | .wait _ :: as => owed as

/-- The transactions noted. -/
def noted (s : St) : List (Nat × Bool) := s.fl.map (fun e => (e.1, e.2.2))

structure Ord (c : Cfg) (log : List Rec) (s : St) : Prop where
  asy : s.settled.filter (fun e => !sync c e) ++ noted s ++ (owed s.todo).filter (fun e => !sync c e) =
    (ends (log.take s.next)).filter (fun e => !sync c e)
  syn : s.settled.filter (sync c) ++ (owed s.todo).filter (sync c) =
    (ends (log.take s.next)).filter (sync c)
  note : ∀ x p ok, .note x p ok ∈ s.todo → sync c (x, ok) = false
  now : ∀ x p ok, .now p x ok ∈ s.todo → sync c (x, ok) = true
  fl : ∀ e ∈ s.fl, sync c (e.1, e.2.2) = false ∧ e.2.1 ≤ s.ptr

theorem ends_append (a b : List Rec) : ends (a ++ b) = ends a ++ ends b := by
  induction a with
  | nil => rfl
  | cons r a ih => cases r <;> simp [ends, ih]

theorem owed_append (a b : List Act) : owed (a ++ b) = owed a ++ owed b := by
  induction a with
  | nil => rfl
  | cons r a ih => cases r <;> simp [owed, ih]

theorem owed_flush (ws : List Nat) : owed (ws.map .flush) = [] := by
  induction ws with
  | nil => rfl
  | cons w ws ih => simpa [owed] using ih

theorem init_ord (c : Cfg) (log : List Rec) : Ord c log init := by
  refine ⟨?_, ?_, ?_, ?_, ?_⟩ <;> simp [init, noted, owed, ends]

/-- Moves which leave the startup process alone. -/
theorem ord_same {c : Cfg} {log : List Rec} {s s' : St} (h : Ord c log s) (h1 : s'.todo = s.todo)
    (h2 : s'.next = s.next) (h3 : s'.fl = s.fl) (h4 : s'.settled = s.settled) (h5 : s'.ptr = s.ptr) :
    Ord c log s' := by
  refine ⟨?_, ?_, ?_, ?_, ?_⟩
  · simp only [noted, h1, h2, h3, h4]; exact h.asy
  · simp only [h1, h2, h4]; exact h.syn
  · simp only [h1]; exact h.note
  · simp only [h1]; exact h.now
  · simp only [h3, h5]; exact h.fl

theorem read_fields {c : Cfg} {s : St} {k : Nat} {r : Rec} :
    (read c s k r).next = k + 1 ∧ (read c s k r).fl = s.fl ∧ (read c s k r).settled = s.settled ∧
    (read c s k r).ptr = s.ptr ∧ owed (read c s k r).todo = ends [r] ∧
    (∀ x p ok, .note x p ok ∈ (read c s k r).todo → sync c (x, ok) = false) ∧
    (∀ x p ok, .now p x ok ∈ (read c s k r).todo → sync c (x, ok) = true) := by
  cases r with
  | mod x g =>
    simp only [read, sendMod]
    split <;> simp [owed, ends]
  | sp x =>
    refine ⟨rfl, rfl, rfl, rfl, ?_, ?_, ?_⟩
    · cases hh : c.hot <;> simp [read, owed, ends, hh, owed_flush]
    · intro y p ok hm
      cases hh : c.hot <;> simp [read, hh] at hm
    · intro y p ok hm
      cases hh : c.hot <;> simp [read, hh] at hm
  | rb x =>
    refine ⟨rfl, rfl, rfl, rfl, ?_, ?_, ?_⟩
    · cases hh : c.hot <;> simp [read, owed, ends, hh, owed_flush, owed_append]
    · intro y p ok hm
      cases hh : c.hot <;> simp [read, hh] at hm
    · intro y p ok hm
      cases hh : c.hot <;> simp [read, hh] at hm
  | fin x ok =>
    have e : ∀ l : List Act, owed l = [] → owed (l ++ [.ptr (endp k),
        if c.sys x || c.ckpt x then .now (startp k) x ok else .note x (startp k) ok]) = [(x, ok)] := by
      intro l hl
      rw [owed_append, hl]
      split <;> rfl
    have hno : ∀ {a : Act}, a ∈ (read c s k (.fin x ok)).todo → (∀ w, a ≠ .flush w) → (∀ p, a ≠ .ptr p) →
        a = if c.sys x || c.ckpt x then .now (startp k) x ok else .note x (startp k) ok := by
      intro a ha h1 h2
      simp only [read] at ha
      rcases List.mem_append.mp ha with ha | ha
      · cases hh : c.hot with
        | false => simp [hh] at ha
        | true =>
          simp only [hh, if_true] at ha
          exact absurd ha (not_flush h1)
      · rcases List.mem_cons.mp ha with ha | ha
        · exact absurd ha (h2 _)
        · exact List.mem_singleton.mp ha
    refine ⟨rfl, rfl, rfl, rfl, ?_, ?_, ?_⟩
    · simp only [read]
      rw [e]
      · rfl
      · split
        · exact owed_flush _
        · rfl
    · intro y p ok' hm
      have := hno hm (by simp) (by simp)
      split at this
      · cases this
      · rename_i hc
        obtain ⟨rfl, _, rfl⟩ := Act.note.inj this
        simpa [sync] using hc
    · intro y p ok' hm
      have := hno hm (by simp) (by simp)
      split at this
      · rename_i hc
        obtain ⟨_, rfl, rfl⟩ := Act.now.inj this
        simpa [sync] using hc
      · cases this

theorem take_next {log : List Rec} {k : Nat} {r : Rec} (h : log[k]? = some r) :
    log.take (k + 1) = log.take k ++ [r] := by
  rw [List.take_add_one, h]
  rfl

theorem ord_read {c : Cfg} {log : List Rec} {s : St} {r : Rec} (h : Ord c log s) (htd : s.todo = [])
    (hr : log[s.next]? = some r) : Ord c log (read c s s.next r) := by
  obtain ⟨e1, e2, e3, e4, e5, e6, e7⟩ := read_fields (c := c) (s := s) (k := s.next) (r := r)
  have h1 := h.asy
  have h2 := h.syn
  rw [htd] at h1 h2
  simp only [owed, List.filter_nil, List.append_nil] at h1 h2
  refine ⟨?_, ?_, e6, e7, ?_⟩
  · rw [e1, e3, e5, take_next hr, ends_append, List.filter_append, ← h1, noted, e2, ← noted]
  · rw [e1, e3, e5, take_next hr, ends_append, List.filter_append, ← h2]
  · rw [e2, e4]; exact h.fl

theorem act_ptr_le {c : Cfg} {log : List Rec} {s : St} {p : Nat} {rest : List Act} (hi : Inv c log s)
    (htd : s.todo = .ptr p :: rest) : s.ptr ≤ p := by
  cases hi.todo with
  | free ws h1 =>
    rw [htd] at h1
    cases ws with
    | nil => cases h1
    | cons w ws => cases (List.cons.inj h1).1
  | back ws k x hk hl h1 hp =>
    rw [htd] at h1
    cases ws with
    | nil => rw [Act.ptr.inj (List.cons.inj h1).1]; simp only [startp]; omega
    | cons w ws => cases (List.cons.inj h1).1
  | backWait k x hk hl h1 hp => rw [htd] at h1; cases (List.cons.inj h1).1
  | fin ws k x ok hk hl h1 hp =>
    rw [htd] at h1
    cases ws with
    | nil => rw [Act.ptr.inj (List.cons.inj h1).1]; simp only [endp]; omega
    | cons w ws => cases (List.cons.inj h1).1
  | finAct k x ok hk hl h1 hp =>
    rw [htd] at h1
    have := (List.cons.inj h1).1
    split at this <;> cases this

/-- A position the startup process waits for has been announced. -/
theorem act_wait_le {c : Cfg} {log : List Rec} {s : St} {a : Act} {rest : List Act} (hi : Inv c log s)
    (htd : s.todo = a :: rest) :
    (∀ p, a = .wait p → p ≤ s.ptr) ∧ (∀ p x ok, a = .now p x ok → p ≤ s.ptr) ∧
    (∀ p x ok, a = .note x p ok → p ≤ s.ptr) := by
  cases hi.todo with
  | free ws h1 =>
    rw [htd] at h1
    cases ws with
    | nil => cases h1
    | cons w ws => rw [(List.cons.inj h1).1]; simp
  | back ws k x hk hl h1 hp =>
    rw [htd] at h1
    cases ws with
    | nil => rw [(List.cons.inj h1).1]; simp
    | cons w ws => rw [(List.cons.inj h1).1]; simp
  | backWait k x hk hl h1 hp =>
    rw [htd] at h1
    rw [(List.cons.inj h1).1]
    simpa using hp
  | fin ws k x ok hk hl h1 hp =>
    rw [htd] at h1
    cases ws with
    | nil => rw [(List.cons.inj h1).1]; simp
    | cons w ws => rw [(List.cons.inj h1).1]; simp
  | finAct k x ok hk hl h1 hp =>
    rw [htd] at h1
    rw [(List.cons.inj h1).1]
    have hp' : startp k ≤ s.ptr := by simp only [startp, endp] at *; omega
    split
    · refine ⟨by simp, ?_, by simp⟩
      intro p y oky hy
      rw [← (Act.now.inj hy).1]; exact hp'
    · refine ⟨by simp, by simp, ?_⟩
      intro p y oky hy
      rw [← (Act.note.inj hy).2.1]; exact hp'

theorem ord_act {c : Cfg} {log : List Rec} {s s' : St} {a : Act} {rest : List Act} (hi : Inv c log s)
    (h : Ord c log s) (htd : s.todo = a :: rest) (hs : act c s a rest = some s') : Ord c log s' := by
  have h1 := h.asy
  have h2 := h.syn
  rw [htd] at h1 h2
  have hno : ∀ x p ok, .note x p ok ∈ rest → sync c (x, ok) = false :=
    fun x p ok hm => h.note x p ok (by rw [htd]; exact List.mem_cons_of_mem _ hm)
  have hnw : ∀ x p ok, .now p x ok ∈ rest → sync c (x, ok) = true :=
    fun x p ok hm => h.now x p ok (by rw [htd]; exact List.mem_cons_of_mem _ hm)
  cases a with
  | flush w => obtain rfl := Option.some.inj hs; exact ⟨h1, h2, hno, hnw, h.fl⟩
  | ptr p =>
    obtain rfl := Option.some.inj hs
    exact ⟨h1, h2, hno, hnw, fun e he => ⟨(h.fl e he).1, Nat.le_trans (h.fl e he).2 (act_ptr_le hi htd)⟩⟩
  | wait p =>
    simp only [act] at hs
    split at hs
    · obtain rfl := Option.some.inj hs; exact ⟨h1, h2, hno, hnw, h.fl⟩
    · cases hs
  | note x p ok =>
    obtain rfl := Option.some.inj hs
    have hx := h.note x p ok (by rw [htd]; simp)
    refine ⟨?_, ?_, hno, hnw, ?_⟩
    · simp only [owed, List.filter_cons, hx, Bool.not_false, if_true] at h1
      simp only [noted, List.map_append, List.map_cons, List.map_nil]
      rw [← h1, noted]
      simp
    · simp only [owed, List.filter_cons, hx] at h2
      exact h2
    · intro e he
      rcases List.mem_append.mp he with he | he
      · exact h.fl e he
      · simp only [List.mem_singleton] at he
        subst he
        exact ⟨hx, (act_wait_le hi htd).2.2 p x ok rfl⟩
  | now p x ok =>
    simp only [act] at hs
    split at hs
    · obtain rfl := Option.some.inj hs
      have hx := h.now x p ok (by rw [htd]; simp)
      refine ⟨?_, ?_, hno, hnw, h.fl⟩
      · simp only [owed, List.filter_cons, hx, Bool.not_true] at h1
        rw [← h1]
        simp [List.filter_append, hx, noted]
      · simp only [owed, List.filter_cons, hx, if_true] at h2
        rw [← h2]
        simp [List.filter_append, hx]
    · cases hs

theorem ord_drain {c : Cfg} {log : List Rec} {s : St} {p : Nat} (h : Ord c log s) :
    Ord c log (drain s p) := by
  have hsp := List.takeWhile_append_dropWhile (p := fun e : Nat × Nat × Bool => decide (e.2.1 ≤ p)) (l := s.fl)
  have ha : ∀ l : List (Nat × Nat × Bool), (∀ e ∈ l, e ∈ s.fl) →
      (l.map (fun e => (e.1, e.2.2))).filter (fun e => !sync c e) = l.map (fun e => (e.1, e.2.2)) ∧
      (l.map (fun e => (e.1, e.2.2))).filter (sync c) = [] := by
    intro l hl
    constructor
    · rw [List.filter_eq_self]
      intro e he
      obtain ⟨f, hf, rfl⟩ := List.mem_map.mp he
      simp [(h.fl f (hl f hf)).1]
    · rw [List.filter_eq_nil_iff]
      intro e he
      obtain ⟨f, hf, rfl⟩ := List.mem_map.mp he
      simp [(h.fl f (hl f hf)).1]
  have ht := ha _ (fun e he => (take_mem (p := fun e : Nat × Nat × Bool => decide (e.2.1 ≤ p)) he).1)
  refine ⟨?_, ?_, h.note, h.now, ?_⟩
  · refine Eq.trans ?_ h.asy
    simp only [drain, noted, List.filter_append, ht.1]
    rw [List.append_assoc (List.filter _ s.settled), ← List.map_append, hsp]
  · refine Eq.trans ?_ h.syn
    simp only [drain, List.filter_append, ht.2, List.append_nil]
  · intro e he
    exact h.fl e ((List.dropWhile_suffix _).subset he)

theorem step_ord {c : Cfg} {log : List Rec} {s s' : St} {mv : Move} (hi : Inv c log s)
    (h : Ord c log s) (hs : step c log s mv = some s') : Ord c log s' := by
  cases mv with
  | read =>
    simp only [step] at hs
    split at hs
    · rename_i r htd hr
      obtain rfl := Option.some.inj hs
      exact ord_read h htd hr
    · cases hs
  | act =>
    simp only [step] at hs
    split at hs
    · cases hs
    · rename_i a rest htd
      exact ord_act hi h htd hs
  | send w =>
    obtain rfl := Option.some.inj hs
    exact ord_same h rfl rfl rfl rfl rfl
  | work w =>
    simp only [step] at hs
    split at hs
    · cases hs
    · rename_i m rest hq
      obtain rfl := Option.some.inj hs
      obtain ⟨_, _, _, _, e5, e6, _, _, e9, e10, e11, _⟩ := work_state (s := s) (w := w) (m := m) (rest := rest)
      exact ord_same h e6 e5 e9 e11 e10
  | poll w =>
    simp only [step] at hs
    split at hs
    · obtain rfl := Option.some.inj hs
      exact ord_same h rfl rfl rfl rfl rfl
    · cases hs
  | look w =>
    simp only [step] at hs
    split at hs
    · obtain rfl := Option.some.inj hs
      obtain ⟨cm, pv, e, _⟩ := look_state s w
      rw [e]
      exact ord_same h rfl rfl rfl rfl rfl
    · cases hs
  | drain p =>
    simp only [step] at hs
    split at hs
    · obtain rfl := Option.some.inj hs
      exact ord_drain h
    · cases hs

theorem run_ord {c : Cfg} {log : List Rec} {ms : List Move} {s s' : St} (hn : 0 < c.n)
    (hpr : Proper log) (hi : Inv c log s) (h : Ord c log s) (hs : run c log s ms = some s') :
    Ord c log s' := by
  induction ms generalizing s with
  | nil => obtain rfl := Option.some.inj hs; exact h
  | cons m ms ih =>
    simp only [run] at hs
    split at hs
    · cases hs
    · rename_i s1 h1
      exact ih (step_inv hn hpr hi h1) (step_ord hi h h1) hs

theorem run_append {c : Cfg} {log : List Rec} {a b : List Move} {s s1 s2 : St}
    (h1 : run c log s a = some s1) (h2 : run c log s1 b = some s2) : run c log s (a ++ b) = some s2 := by
  induction a generalizing s with
  | nil => obtain rfl := Option.some.inj h1; exact h2
  | cons m a ih =>
    simp only [run, List.cons_append] at h1 ⊢
    split at h1
    · cases h1
    · rename_i s' hs
      exact ih h1

/-- The startup process and the other workers have not moved. -/
structure Same (w : Nat) (s s' : St) : Prop where
  todo : s'.todo = s.todo
  next : s'.next = s.next
  fl : s'.fl = s.fl
  settled : s'.settled = s.settled
  ptr : s'.ptr = s.ptr
  commit : ∀ v, v ≠ w → s'.commit v = s.commit v

theorem Same.trans {w : Nat} {s s1 s2 : St} (h1 : Same w s s1) (h2 : Same w s1 s2) : Same w s s2 :=
  ⟨h2.todo.trans h1.todo, h2.next.trans h1.next, h2.fl.trans h1.fl, h2.settled.trans h1.settled,
    h2.ptr.trans h1.ptr, fun v hv => (h2.commit v hv).trans (h1.commit v hv)⟩

/-- A move of a worker. -/
def Worker (w : Nat) (m : Move) : Prop := m = .work w ∨ m = .poll w ∨ m = .look w

/-- A worker can empty its queue. -/
theorem empty_queue (c : Cfg) (log : List Rec) (w : Nat) (s : St) :
    ∃ ms s', run c log s ms = some s' ∧ s'.queue w = [] ∧ Same w s s' ∧ ∀ m ∈ ms, Worker w m := by
  generalize hl : (s.queue w).length = l
  induction l generalizing s with
  | zero =>
    exact ⟨[], s, rfl, List.length_eq_zero_iff.mp hl, ⟨rfl, rfl, rfl, rfl, rfl, fun _ _ => rfl⟩, by simp⟩
  | succ l ih =>
    cases hq : s.queue w with
    | nil => rw [hq] at hl; simp at hl
    | cons m rest =>
      obtain ⟨e1, _, _, _, e5, e6, _, _, e9, e10, e11, _⟩ :=
        work_state (s := s) (w := w) (m := m) (rest := rest)
      obtain ⟨ms, s', h1, h2, h3, h4⟩ := ih (work s w m rest) (by
        rw [e1, set_same]; rw [hq] at hl; simpa using hl)
      refine ⟨.work w :: ms, s', ?_, h2, Same.trans ⟨e6, e5, e9, e11, e10, ?_⟩ h3, ?_⟩
      · simp only [run, step, hq]; exact h1
      · intro v hv
        rcases work_commit (s := s) (w := w) (m := m) (rest := rest) v with
          ⟨hc, _⟩ | ⟨rfl, _⟩ | ⟨rfl, _⟩ | ⟨_, hc⟩
        · exact hc
        · exact absurd rfl hv
        · exact absurd rfl hv
        · exact hc
      · intro k hk
        rcases List.mem_cons.mp hk with rfl | hk
        · exact .inl rfl
        · exact h4 k hk

theorem poll_look {c : Cfg} {log : List Rec} {w : Nat} {s : St} (hq : s.queue w = []) :
    run c log s [.poll w, .look w] = some (look { s with seen := set s.seen w true } w) := by
  simp [run, step, hq, set_same]

/-- A worker can reach the announced position. -/
theorem catch_up (c : Cfg) (log : List Rec) (w : Nat) (s : St) :
    ∃ ms s', run c log s ms = some s' ∧ s.ptr ≤ s'.commit w ∧ Same w s s' ∧ ∀ m ∈ ms, Worker w m := by
  -- twice, from a state with an empty queue
  have two : ∀ s : St, s.queue w = [] → ∃ ms s', run c log s ms = some s' ∧ s.ptr ≤ s'.commit w ∧
      Same w s s' ∧ ∀ m ∈ ms, Worker w m := by
    intro s hq
    have one : ∀ s : St, s.queue w = [] → ∃ s', run c log s [.poll w, .look w] = some s' ∧ Same w s s' ∧
        s'.queue w = [] ∧
        (s.ptr ≤ s'.commit w ∨ s'.prev w = some s.ptr) ∧ (s.prev w = some s.ptr → s.ptr ≤ s'.commit w) := by
      intro s hq
      refine ⟨_, poll_look hq, ?_⟩
      simp only [look]
      split
      · split
        · rename_i hlt hp
          refine ⟨⟨rfl, rfl, rfl, rfl, rfl, fun _ _ => rfl⟩, hq, .inr (set_same _ _ _), ?_⟩
          intro hp'
          have hp2 : s.prev w = none := hp
          rw [hp2] at hp'; cases hp'
        · rename_i hlt p hp
          have hp2 : s.prev w = some p := hp
          refine ⟨⟨rfl, rfl, rfl, rfl, rfl, fun v hv => set_other _ _ hv⟩, hq, ?_, ?_⟩
          · simp only [set_same]
            split
            · rename_i h1; left; omega
            · exact .inr rfl
          · intro hp'
            rw [hp2] at hp'
            simp only [set_same]
            have := Option.some.inj hp'
            omega
      · rename_i hge
        have : s.ptr ≤ s.commit w := by simpa using hge
        exact ⟨⟨rfl, rfl, rfl, rfl, rfl, fun _ _ => rfl⟩, hq, .inl this, fun _ => this⟩
    obtain ⟨s1, h1, h2, h3, h4, _⟩ := one s hq
    rcases h4 with h4 | h4
    · exact ⟨_, s1, h1, h4, h2, by simp [Worker]⟩
    · obtain ⟨s2, g1, g2, _, _, g5⟩ := one s1 h3
      refine ⟨_, s2, run_append h1 g1, ?_, h2.trans g2, by simp [Worker]⟩
      rw [← h2.ptr]
      exact g5 (by rw [h2.ptr]; exact h4)
  obtain ⟨ms, s1, h1, h2, h3, h4⟩ := empty_queue c log w s
  obtain ⟨ns, s2, g1, g2, g3, g4⟩ := two s1 h2
  refine ⟨ms ++ ns, s2, run_append h1 g1, by rw [← h3.ptr]; exact g2, h3.trans g3, ?_⟩
  intro m hm
  rcases List.mem_append.mp hm with hm | hm
  · exact h4 m hm
  · exact g4 m hm

/-- A move which is none of the startup process. -/
def Quiet (c : Cfg) (m : Move) : Prop := ∃ w, w < c.n ∧ Worker w m

/-- All workers can reach the announced position. -/
theorem all_catch_up (c : Cfg) (log : List Rec) (s : St) :
    ∃ ms s', run c log s ms = some s' ∧ reached c s' s.ptr = true ∧ s'.todo = s.todo ∧ s'.next = s.next ∧
      s'.fl = s.fl ∧ s'.settled = s.settled ∧ s'.ptr = s.ptr ∧ ∀ m ∈ ms, Quiet c m := by
  have : ∀ j, j ≤ c.n → ∃ ms s', run c log s ms = some s' ∧ (∀ w, w < j → s.ptr ≤ s'.commit w) ∧
      s'.todo = s.todo ∧ s'.next = s.next ∧
      s'.fl = s.fl ∧ s'.settled = s.settled ∧ s'.ptr = s.ptr ∧ ∀ m ∈ ms, Quiet c m := by
    intro j
    induction j with
    | zero => exact fun _ => ⟨[], s, rfl, by simp, rfl, rfl, rfl, rfl, rfl, by simp⟩
    | succ j ih =>
      intro hj
      obtain ⟨ms, s1, h1, h2, h3, h4, h5, h6, h7, h8⟩ := ih (by omega)
      obtain ⟨ns, s2, g1, g2, g3, g4⟩ := catch_up c log j s1
      refine ⟨ms ++ ns, s2, run_append h1 g1, ?_, g3.todo.trans h3, g3.next.trans h4, g3.fl.trans h5,
        g3.settled.trans h6, g3.ptr.trans h7, ?_⟩
      · intro w hw
        by_cases hwj : w = j
        · subst hwj; rw [← h7]; exact g2
        · rw [g3.commit w hwj]; exact h2 w (by omega)
      · intro m hm
        rcases List.mem_append.mp hm with hm | hm
        · exact h8 m hm
        · exact ⟨j, by omega, g4 m hm⟩
  obtain ⟨ms, s', h1, h2, h3⟩ := this c.n (Nat.le_refl _)
  refine ⟨ms, s', h1, ?_, h3⟩
  rw [reached, List.all_eq_true]
  intro w hw
  simpa using h2 w (List.mem_range.mp hw)

theorem reached_mono {c : Cfg} {s : St} {p q : Nat} (h : reached c s q = true) (hp : p ≤ q) :
    reached c s p = true := by
  rw [reached, List.all_eq_true] at *
  intro w hw
  have := h w hw
  simp at this ⊢
  omega

/-- The startup process can do the next thing after some moves of workers. -/
theorem act_next {c : Cfg} {log : List Rec} {s : St} {a : Act} {rest : List Act} (hi : Inv c log s)
    (htd : s.todo = a :: rest) :
    ∃ ms s', run c log s (ms ++ [.act]) = some s' ∧ s'.todo = rest ∧ s'.next = s.next ∧
      ∀ m ∈ ms, Quiet c m := by
  obtain ⟨ms, s1, h1, h2, h3, h4, h5, h6, h7, h8⟩ := all_catch_up c log s
  obtain ⟨hw, hn, _⟩ := act_wait_le hi htd
  have : ∃ s', act c s1 a rest = some s' ∧ s'.todo = rest ∧ s'.next = s1.next := by
    cases a with
    | flush w => exact ⟨_, rfl, rfl, rfl⟩
    | ptr p => exact ⟨_, rfl, rfl, rfl⟩
    | note x p ok => exact ⟨_, rfl, rfl, rfl⟩
    | wait p =>
      have := reached_mono h2 (hw p rfl)
      simp only [act, this, if_true]
      exact ⟨_, rfl, rfl, rfl⟩
    | now p x ok =>
      have := reached_mono h2 (hn p x ok rfl)
      simp only [act, this, if_true]
      exact ⟨_, rfl, rfl, rfl⟩
  obtain ⟨s', g1, g2, g3⟩ := this
  refine ⟨ms, s', run_append h1 ?_, g2, g3.trans h4, h8⟩
  simp [run, step, h3, htd, g1]

/-- The startup process can do all it has to do for the record. -/
theorem finish_todo {c : Cfg} {log : List Rec} {s : St} (hn : 0 < c.n) (hpr : Proper log)
    (hi : Inv c log s) : ∃ ms s', run c log s ms = some s' ∧ s'.todo = [] ∧ s'.next = s.next ∧
      ∀ m ∈ ms, m = .act ∨ Quiet c m := by
  generalize hl : s.todo = l
  induction l generalizing s with
  | nil => exact ⟨[], s, rfl, hl, rfl, by simp⟩
  | cons a rest ih =>
    obtain ⟨ms, s1, h1, h2, h3, h4⟩ := act_next hi hl
    obtain ⟨ns, s2, g1, g2, g3, g4⟩ := ih (run_inv hn hpr hi h1) h2
    refine ⟨_, s2, run_append h1 g1, g2, g3.trans h3, ?_⟩
    intro m hm
    rcases List.mem_append.mp hm with hm | hm
    · rcases List.mem_append.mp hm with hm | hm
      · exact .inr (h4 m hm)
      · exact .inl (List.mem_singleton.mp hm)
    · exact g4 m hm

/-- Recovery can read the whole log. -/
theorem finish_log {c : Cfg} {log : List Rec} {s : St} (hn : 0 < c.n) (hpr : Proper log)
    (hi : Inv c log s) (hnx : s.next ≤ log.length) :
    ∃ ms s', run c log s ms = some s' ∧ s'.todo = [] ∧ s'.next = log.length := by
  generalize hl : log.length - s.next = l
  induction l generalizing s with
  | zero =>
    obtain ⟨ms, s', h1, h2, h3, _⟩ := finish_todo hn hpr hi
    exact ⟨ms, s', h1, h2, by omega⟩
  | succ l ih =>
    obtain ⟨ms, s1, h1, h2, h3, _⟩ := finish_todo hn hpr hi
    have hlt : s1.next < log.length := by omega
    have hr : run c log s1 [.read] = some (read c s1 s1.next log[s1.next]) := by
      simp [run, step, h2, List.getElem?_eq_getElem hlt]
    have hx : (read c s1 s1.next log[s1.next]).next = s1.next + 1 := read_fields.1
    obtain ⟨ns, s2, g1, g2, g3⟩ := ih (run_inv hn hpr (run_inv hn hpr hi h1) hr) (by omega) (by omega)
    exact ⟨_, s2, run_append (run_append h1 hr) g1, g2, g3⟩

theorem act_next_eq {c : Cfg} {s s' : St} {a : Act} {rest : List Act} (hs : act c s a rest = some s') :
    s'.next = s.next := by
  cases a with
  | flush w => obtain rfl := Option.some.inj hs; rfl
  | ptr p => obtain rfl := Option.some.inj hs; rfl
  | note x p ok => obtain rfl := Option.some.inj hs; rfl
  | wait p =>
    simp only [act] at hs
    split at hs
    · obtain rfl := Option.some.inj hs; rfl
    · cases hs
  | now p x ok =>
    simp only [act] at hs
    split at hs
    · obtain rfl := Option.some.inj hs; rfl
    · cases hs

/-- Not more is read than there is. -/
theorem step_next {c : Cfg} {log : List Rec} {s s' : St} {mv : Move} (h : s.next ≤ log.length)
    (hs : step c log s mv = some s') : s'.next ≤ log.length := by
  cases mv with
  | read =>
    simp only [step] at hs
    split at hs
    · rename_i r htd hr
      obtain rfl := Option.some.inj hs
      rw [read_fields.1]
      exact (List.getElem?_eq_some_iff.mp hr).1
    · cases hs
  | act =>
    simp only [step] at hs
    split at hs
    · cases hs
    · rw [act_next_eq hs]; exact h
  | send w => obtain rfl := Option.some.inj hs; exact h
  | work w =>
    simp only [step] at hs
    split at hs
    · cases hs
    · rename_i m rest hq
      obtain rfl := Option.some.inj hs
      rw [(work_state (s := s) (w := w) (m := m) (rest := rest)).2.2.2.2.1]
      exact h
  | poll w =>
    simp only [step] at hs
    split at hs
    · obtain rfl := Option.some.inj hs; exact h
    · cases hs
  | look w =>
    simp only [step] at hs
    split at hs
    · obtain rfl := Option.some.inj hs
      obtain ⟨cm, pv, e, _⟩ := look_state s w
      rw [e]; exact h
    · cases hs
  | drain p =>
    simp only [step] at hs
    split at hs
    · obtain rfl := Option.some.inj hs; exact h
    · cases hs

theorem run_next {c : Cfg} {log : List Rec} {ms : List Move} {s s' : St} (h : s.next ≤ log.length)
    (hs : run c log s ms = some s') : s'.next ≤ log.length := by
  induction ms generalizing s with
  | nil => obtain rfl := Option.some.inj hs; exact h
  | cons m ms ih =>
    simp only [run] at hs
    split at hs
    · cases hs
    · rename_i s1 h1
      exact ih (step_next h h1) hs

/-- Recovery can settle all transactions which end in the log. -/
theorem finish_all {c : Cfg} {log : List Rec} {s : St} (hn : 0 < c.n) (hpr : Proper log)
    (hi : Inv c log s) (ho : Ord c log s) (hnx : s.next ≤ log.length) :
    ∃ ms s', run c log s ms = some s' ∧ s'.todo = [] ∧ s'.next = log.length ∧
      ∀ e, e ∈ ends log → e ∈ s'.settled := by
  obtain ⟨ms, s1, h1, h2, h3⟩ := finish_log hn hpr hi hnx
  obtain ⟨ns, s2, g1, g2, g3, g4, g5, g6, g7, _⟩ := all_catch_up c log s1
  have ho2 := run_ord hn hpr hi ho (run_append h1 g1)
  have hd : run c log s2 [.drain s2.ptr] = some (drain s2 s2.ptr) := by
    rw [← g7] at g2
    simp [run, step, g2]
  have ho3 := ord_drain (p := s2.ptr) ho2
  refine ⟨_, _, run_append (run_append h1 g1) hd, g3.trans h2, g4.trans h3, ?_⟩
  have htd : (drain s2 s2.ptr).todo = [] := g3.trans h2
  have hnx2 : (drain s2 s2.ptr).next = log.length := g4.trans h3
  have hfl : (drain s2 s2.ptr).fl = [] := by
    have : ∀ l : List (Nat × Nat × Bool), (∀ e ∈ l, e.2.1 ≤ s2.ptr) →
        l.dropWhile (fun e => decide (e.2.1 ≤ s2.ptr)) = [] := by
      intro l hl
      induction l with
      | nil => rfl
      | cons e l ih =>
        rw [List.dropWhile_cons, if_pos (by simpa using hl e (by simp))]
        exact ih (fun f hf => hl f (by simp [hf]))
    exact this s2.fl (fun e he => (ho2.fl e he).2)
  have ha := ho3.asy
  have hs := ho3.syn
  rw [htd, hnx2, List.take_length] at ha hs
  simp only [owed, List.filter_nil, List.append_nil, noted, hfl, List.map_nil] at ha hs
  intro e he
  cases hsy : sync c e with
  | false =>
    have : e ∈ (ends log).filter (fun e => !sync c e) := List.mem_filter.mpr ⟨he, by simp [hsy]⟩
    rw [← ha] at this
    exact (List.mem_filter.mp this).1
  | true =>
    have : e ∈ (ends log).filter (sync c) := List.mem_filter.mpr ⟨he, hsy⟩
    rw [← hs] at this
    exact (List.mem_filter.mp this).1

end Verif.Workers
