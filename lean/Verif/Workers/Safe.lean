import Verif.Workers.Inv
/-!
# What holds in every run of a hot standby
-/

namespace Verif.Workers

/-- Worker `w` has no message left of a transaction which ends up to `p`. -/
def Clear (log : List Rec) (s : St) (w p : Nat) : Prop :=
  ∀ k x ok m, log[k]? = some (.fin x ok) → endp k ≤ p → m ∈ pend s w → txn log m.idx ≠ some x

structure Safe (c : Cfg) (log : List Rec) (s : St) : Prop where
  past : ∀ k x ok, log[k]? = some (.fin x ok) → k < s.next →
    endp k ≤ s.ptr ∨ (k + 1 = s.next ∧ .ptr (endp k) ∈ s.todo)
  todo : ∀ k x ok w m, log[k]? = some (.fin x ok) → .ptr (endp k) ∈ s.todo → m ∈ s.buf w →
    txn log m.idx = some x → .flush w ∈ s.todo
  sent : ∀ k x ok w m, log[k]? = some (.fin x ok) → endp k ≤ s.ptr → m ∈ s.buf w → txn log m.idx ≠ some x
  commit : ∀ w, Clear log s w (s.commit w)
  seen : ∀ w p, s.seen w = true → s.prev w = some p → Clear log s w p
  settled : ∀ e ∈ s.settled, ∀ w m, w < c.n → m ∈ pend s w → txn log m.idx ≠ some e.1

theorem init_safe (c : Cfg) (log : List Rec) : Safe c log init := by
  refine ⟨?_, ?_, ?_, ?_, ?_, ?_⟩ <;> simp [init, pend, Clear]

theorem Clear.mono {log : List Rec} {s s' : St} {w p p' : Nat} (h : Clear log s w p)
    (hp : p' ≤ p) (hs : ∀ m, m ∈ pend s' w → m ∈ pend s w) : Clear log s' w p' :=
  fun k x ok m hk he hm => h k x ok m hk (Nat.le_trans he hp) (hs m hm)

/-- Among the flushes there is no other act. -/
theorem not_flush {ws : List Nat} {a : Act} (ha : ∀ w, a ≠ .flush w) : a ∉ ws.map Act.flush := by
  intro h
  obtain ⟨w, _, rfl⟩ := List.mem_map.mp h
  exact ha w rfl

theorem ptr_end {c : Cfg} {log : List Rec} {s : St} {k x : Nat} {ok : Bool} (h : Prog c log s)
    (hk : log[k]? = some (.fin x ok)) (hm : .ptr (endp k) ∈ s.todo) :
    k + 1 = s.next ∧ s.ptr ≤ 2 * k ∧ ∃ ws : List Nat, s.todo = ws.map .flush ++
      [.ptr (endp k), if c.sys x || c.ckpt x then .now (startp k) x ok else .note x (startp k) ok] := by
  cases h with
  | free ws h1 => rw [h1] at hm; exact absurd hm (not_flush (by simp))
  | back ws j y hj hl h1 hp =>
    rw [h1] at hm
    rcases List.mem_append.mp hm with hm | hm
    · exact absurd hm (not_flush (by simp))
    · simp [startp, endp] at hm; omega
  | backWait j y hj hl h1 hp => rw [h1] at hm; simp at hm
  | fin ws j y ok' hj hl h1 hp =>
    rw [h1] at hm
    have : k = j := by
      rcases List.mem_append.mp hm with hm | hm
      · exact absurd hm (not_flush (by simp))
      · have : Act.ptr (endp k) = .ptr (endp j) := by
          rcases List.mem_cons.mp hm with hm | hm
          · exact hm
          · simp only [List.mem_singleton] at hm
            split at hm <;> cases hm
        simp [endp] at this; omega
    subst this
    rw [hk] at hl
    obtain ⟨rfl, rfl⟩ := Rec.fin.inj (Option.some.inj hl)
    exact ⟨hj, hp, ws, h1⟩
  | finAct j y ok' hj hl h1 hp =>
    rw [h1] at hm
    simp only [List.mem_singleton] at hm
    split at hm <;> cases hm

/-- Sending a buffer. -/
theorem safe_flush {c : Cfg} {log : List Rec} {s : St} (h : Safe c log s) (w : Nat) (td : List Act)
    (ht : ∀ a, a ∈ s.todo → a ∈ td ∨ a = .flush w) (ht' : ∀ a, a ∈ td → a ∈ s.todo) :
    Safe c log { flush s w with todo := td } := by
  have hp : ∀ v, pend { flush s w with todo := td } v = pend s v := pend_flush s w
  refine ⟨?_, ?_, ?_, ?_, ?_, ?_⟩
  · intro k x ok hk hn
    rcases h.past k x ok hk hn with h1 | ⟨h1, h2⟩
    · exact .inl h1
    · rcases ht _ h2 with h2 | h2
      · exact .inr ⟨h1, h2⟩
      · cases h2
  · intro k x ok v m hk ha hm hx
    have hm' : m ∈ (flush s w).buf v := hm
    obtain ⟨hm1, hv⟩ := buf_flush hm'
    rcases ht _ (h.todo k x ok v m hk (ht' _ ha) hm1 hx) with h1 | h1
    · exact h1
    · exact absurd (Act.flush.inj h1) hv
  · intro k x ok v m hk hp hm
    have hm' : m ∈ (flush s w).buf v := hm
    exact h.sent k x ok v m hk hp (buf_flush hm').1
  · intro v
    exact (h.commit v).mono (Nat.le_refl _) (fun m hm => by rw [hp] at hm; exact hm)
  · intro v p h1 h2
    exact (h.seen v p h1 h2).mono (Nat.le_refl _) (fun m hm => by rw [hp] at hm; exact hm)
  · intro e he v m hv hm
    rw [hp] at hm
    exact h.settled e he v m hv hm

theorem safe_send {c : Cfg} {log : List Rec} {s : St} (h : Safe c log s) (w : Nat) :
    Safe c log (flush s w) :=
  safe_flush h w s.todo (fun _ ha => .inl ha) (fun _ ha => ha)

/-- All workers past a finish record have nothing left of its transaction. -/
theorem past_clear {c : Cfg} {log : List Rec} {s : St} {p k x : Nat} {ok : Bool} (hi : Inv c log s)
    (h : Safe c log s) (hr : reached c s p = true) (hk : log[k]? = some (.fin x ok))
    (hp : startp k ≤ p) {w : Nat} {m : Msg} (hw : w < c.n) (hm : m ∈ pend s w) :
    txn log m.idx ≠ some x := by
  have h1 : p ≤ s.commit w := by
    rw [reached, List.all_eq_true] at hr
    simpa using hr w (List.mem_range.mpr hw)
  exact h.commit w k x ok m hk (hi.gcommit w k x ok hk (Nat.le_trans hp h1)) hm

theorem safe_act {c : Cfg} {log : List Rec} {s s' : St} {a : Act} {rest : List Act} (hi : Inv c log s)
    (h : Safe c log s) (htd : s.todo = a :: rest) (hs : act c s a rest = some s') : Safe c log s' := by
  cases a with
  | flush w =>
    obtain rfl := Option.some.inj hs
    refine safe_flush h w rest ?_ ?_
    · intro b hb
      rw [htd] at hb
      rcases List.mem_cons.mp hb with hb | hb
      · exact .inr hb
      · exact .inl hb
    · intro b hb; rw [htd]; simp [hb]
  | ptr p =>
    obtain rfl := Option.some.inj hs
    -- what `p` is
    have hcase : (∃ k x, k + 1 = s.next ∧ log[k]? = some (.rb x) ∧ p = startp k ∧ s.ptr ≤ 2 * k ∧
          rest = [.wait (startp k)]) ∨
        (∃ k x ok, k + 1 = s.next ∧ log[k]? = some (.fin x ok) ∧ p = endp k ∧ s.ptr ≤ 2 * k ∧
          rest = [if c.sys x || c.ckpt x then .now (startp k) x ok else .note x (startp k) ok]) := by
      cases hi.todo with
      | free ws h1 =>
        rw [htd] at h1
        cases ws with
        | nil => cases h1
        | cons w ws => cases (List.cons.inj h1).1
      | back ws k x hk hl h1 hp =>
        rw [htd] at h1
        cases ws with
        | nil =>
          obtain ⟨h2, h3⟩ := List.cons.inj h1
          exact .inl ⟨k, x, hk, hl, Act.ptr.inj h2, hp, h3⟩
        | cons w ws => cases (List.cons.inj h1).1
      | backWait k x hk hl h1 hp => rw [htd] at h1; cases (List.cons.inj h1).1
      | fin ws k x ok hk hl h1 hp =>
        rw [htd] at h1
        cases ws with
        | nil =>
          obtain ⟨h2, h3⟩ := List.cons.inj h1
          exact .inr ⟨k, x, ok, hk, hl, Act.ptr.inj h2, hp, h3⟩
        | cons w ws => cases (List.cons.inj h1).1
      | finAct k x ok hk hl h1 hp =>
        rw [htd] at h1
        have := (List.cons.inj h1).1
        split at this <;> cases this
    have hnop : ∀ q, Act.ptr q ∉ rest := by
      intro q hq
      rcases hcase with ⟨k, x, _, _, _, _, hr⟩ | ⟨k, x, ok, _, _, _, _, hr⟩
      · rw [hr] at hq; simp at hq
      · rw [hr] at hq
        simp only [List.mem_singleton] at hq
        split at hq <;> cases hq
    have hle : s.ptr ≤ p := by
      rcases hcase with ⟨k, x, _, _, hp, h2, _⟩ | ⟨k, x, ok, _, _, hp, h2, _⟩
      · rw [hp]; simp only [startp]; omega
      · rw [hp]; simp only [endp]; omega
    refine ⟨?_, ?_, ?_, h.commit, h.seen, h.settled⟩
    · intro k x ok hk hn
      left
      show endp k ≤ p
      rcases h.past k x ok hk hn with h1 | ⟨h1, h2⟩
      · omega
      · rw [htd] at h2
        rcases List.mem_cons.mp h2 with h2 | h2
        · have := Act.ptr.inj h2; omega
        · exact absurd h2 (hnop _)
    · intro k x ok w m hk hp
      exact absurd hp (hnop _)
    · intro k x ok w m hk hp hm hx
      have hp' : endp k ≤ p := hp
      have hm' : m ∈ s.buf w := hm
      have hkn : k < s.next := by
        rcases hcase with ⟨j, y, hj, _, hpe, _⟩ | ⟨j, y, ok', hj, _, hpe, _⟩
        · rw [hpe] at hp'; simp only [startp, endp] at hp'; omega
        · rw [hpe] at hp'; simp only [endp] at hp'; omega
      rcases h.past k x ok hk hkn with h1 | ⟨h1, h2⟩
      · exact h.sent k x ok w m hk h1 hm' hx
      · have h3 := h.todo k x ok w m hk h2 hm' hx
        rw [htd] at h3
        rcases List.mem_cons.mp h3 with h3 | h3
        · cases h3
        · rcases hcase with ⟨j, y, _, _, _, _, hr⟩ | ⟨j, y, ok', _, _, _, _, hr⟩
          · rw [hr] at h3; simp at h3
          · rw [hr] at h3
            simp only [List.mem_singleton] at h3
            split at h3 <;> cases h3
  | wait p =>
    simp only [act] at hs
    split at hs
    · obtain rfl := Option.some.inj hs
      refine ⟨?_, ?_, h.sent, h.commit, h.seen, h.settled⟩
      · intro k x ok hk hn
        rcases h.past k x ok hk hn with h1 | ⟨h1, h2⟩
        · exact .inl h1
        · rw [htd] at h2
          rcases List.mem_cons.mp h2 with h2 | h2
          · cases h2
          · exact .inr ⟨h1, h2⟩
      · intro k x ok w m hk hp hm hx
        have := h.todo k x ok w m hk (by rw [htd]; exact List.mem_cons_of_mem _ hp) hm hx
        rw [htd] at this
        rcases List.mem_cons.mp this with h1 | h1
        · cases h1
        · exact h1
    · cases hs
  | note x p ok =>
    obtain rfl := Option.some.inj hs
    refine ⟨?_, ?_, h.sent, h.commit, h.seen, h.settled⟩
    · intro k x ok hk hn
      rcases h.past k x ok hk hn with h1 | ⟨h1, h2⟩
      · exact .inl h1
      · rw [htd] at h2
        rcases List.mem_cons.mp h2 with h2 | h2
        · cases h2
        · exact .inr ⟨h1, h2⟩
    · intro k x ok w m hk hp hm hx
      have := h.todo k x ok w m hk (by rw [htd]; exact List.mem_cons_of_mem _ hp) hm hx
      rw [htd] at this
      rcases List.mem_cons.mp this with h1 | h1
      · cases h1
      · exact h1
  | now p y oky =>
    simp only [act] at hs
    split at hs
    · rename_i hr
      obtain rfl := Option.some.inj hs
      refine ⟨?_, ?_, h.sent, h.commit, h.seen, ?_⟩
      · intro k x ok hk hn
        rcases h.past k x ok hk hn with h1 | ⟨h1, h2⟩
        · exact .inl h1
        · rw [htd] at h2
          rcases List.mem_cons.mp h2 with h2 | h2
          · cases h2
          · exact .inr ⟨h1, h2⟩
      · intro k x ok w m hk hp hm hx
        have := h.todo k x ok w m hk (by rw [htd]; exact List.mem_cons_of_mem _ hp) hm hx
        rw [htd] at this
        rcases List.mem_cons.mp this with h1 | h1
        · cases h1
        · exact h1
      · intro e he w m hw hm
        rcases List.mem_append.mp he with he | he
        · exact h.settled e he w m hw hm
        · simp only [List.mem_singleton] at he
          subst he
          obtain ⟨k, hk, hp⟩ : ∃ k : Nat, log[k]? = some (.fin y oky) ∧ p = startp k := by
            cases hi.todo with
            | free ws h1 =>
              rw [htd] at h1
              cases ws with
              | nil => cases h1
              | cons w ws => cases (List.cons.inj h1).1
            | back ws k x hk hl h1 hp =>
              rw [htd] at h1
              cases ws with
              | nil => cases (List.cons.inj h1).1
              | cons w ws => cases (List.cons.inj h1).1
            | backWait k x hk hl h1 hp => rw [htd] at h1; cases (List.cons.inj h1).1
            | fin ws k x ok hk hl h1 hp =>
              rw [htd] at h1
              cases ws with
              | nil => cases (List.cons.inj h1).1
              | cons w ws => cases (List.cons.inj h1).1
            | finAct k x ok hk hl h1 hp =>
              rw [htd] at h1
              have := (List.cons.inj h1).1
              split at this
              · obtain ⟨rfl, rfl, rfl⟩ := Act.now.inj this
                exact ⟨k, hl, rfl⟩
              · cases this
          exact past_clear hi h hr hk (by rw [hp]; exact Nat.le_refl _) hw hm
    · cases hs

theorem safe_work {c : Cfg} {log : List Rec} {s : St} {w : Nat} {m : Msg} {rest : List Msg}
    (hpr : Proper log) (hi : Inv c log s) (h : Safe c log s) (hq : s.queue w = m :: rest) :
    Safe c log (work s w m rest) := by
  obtain ⟨e1, e2, e3, e4, e5, e6, e7, e8, e9, e10, e11, e12, e13⟩ :=
    work_state (s := s) (w := w) (m := m) (rest := rest)
  obtain ⟨p1, p2⟩ := pend_work hq
  have hm : m ∈ pend s w := by rw [p1]; simp
  have hfit := hi.fits w m hm
  -- the messages after `m` are of later records
  have hlate : ∀ p, p ≤ endp m.idx → Clear log (work s w m rest) w p := by
    intro p hp k x ok j hk he hj hx
    have hlt : m.idx < j.idx := by
      have := hi.sorted w
      rw [p1] at this
      exact (List.pairwise_cons.mp this).1 j hj
    have hkm : k ≤ m.idx := by simp only [endp] at he hp; omega
    obtain ⟨r, hr, hrx⟩ := Option.map_eq_some_iff.mp hx
    exact hpr k j.idx x ok r (by omega) hk hr hrx
  refine ⟨?_, ?_, ?_, ?_, ?_, ?_⟩
  · rw [e5, e6, e10]; exact h.past
  · rw [e6, e2]; exact h.todo
  · rw [e10, e2]; exact h.sent
  · intro v
    rcases work_commit (s := s) (w := w) (m := m) (rest := rest) v with
      ⟨hc, _⟩ | ⟨rfl, x, p, hb, hc⟩ | ⟨rfl, x, p, ok, hb, hc⟩ | ⟨_, hc⟩
    · rw [hc]; exact (h.commit v).mono (Nat.le_refl _) (fun _ hj => pend_work_sub hq hj)
    · rw [hc]
      simp only [Fits, hb] at hfit
      exact hlate p (by rw [hfit.2]; simp [startp, endp])
    · rw [hc]
      simp only [Fits, hb] at hfit
      exact hlate p (by rw [hfit.2]; exact Nat.le_refl _)
    · rw [hc]; exact (h.commit v).mono (Nat.le_refl _) (fun _ hj => pend_work_sub hq hj)
  · intro v p h1 h2
    by_cases hv : v = w
    · subst hv; rw [e13, set_same] at h1; cases h1
    · rw [e13, set_other _ _ hv] at h1
      rw [e12, set_other _ _ hv] at h2
      exact (h.seen v p h1 h2).mono (Nat.le_refl _) (fun _ hj => pend_work_sub hq hj)
  · intro e he v j hv hj
    rw [e11] at he
    exact h.settled e he v j hv (pend_work_sub hq hj)

theorem safe_poll {c : Cfg} {log : List Rec} {s : St} {w : Nat} (hi : Inv c log s) (h : Safe c log s)
    (hq : s.queue w = []) : Safe c log { s with seen := set s.seen w true } := by
  refine ⟨h.past, h.todo, h.sent, h.commit, ?_, h.settled⟩
  intro v p h1 h2
  by_cases hv : v = w
  · subst hv
    intro k x ok m hk he hm
    have hm' : m ∈ s.buf v := by
      have : m ∈ s.queue v ++ s.buf v := hm
      rw [hq] at this
      exact this
    exact h.sent k x ok v m hk (Nat.le_trans he (hi.bprev v p h2)) hm'
  · have h1' : set s.seen w true v = true := h1
    rw [set_other _ _ hv] at h1'
    exact h.seen v p h1' h2

theorem safe_look {c : Cfg} {log : List Rec} {s : St} {w : Nat} (h : Safe c log s)
    (hw : s.seen w = true) : Safe c log (look s w) := by
  obtain ⟨cm, pv, e, ho, hcm, _⟩ := look_state s w
  rw [e]
  refine ⟨h.past, h.todo, h.sent, ?_, ?_, h.settled⟩
  · intro v
    show Clear log s v (cm v)
    by_cases hv : v = w
    · subst hv
      rcases hcm with hcm | hcm
      · rw [hcm]; exact h.commit v
      · exact h.seen v _ hw hcm
    · rw [(ho v hv).1]; exact h.commit v
  · intro v p h1 h2
    by_cases hv : v = w
    · subst hv
      have h1' : set s.seen v false v = true := h1
      rw [set_same] at h1'; cases h1'
    · have h1' : set s.seen w false v = true := h1
      rw [set_other _ _ hv] at h1'
      have h2' : pv v = some p := h2
      rw [(ho v hv).2] at h2'
      exact h.seen v p h1' h2'

theorem safe_drain {c : Cfg} {log : List Rec} {s : St} {p : Nat} (hi : Inv c log s) (h : Safe c log s)
    (hr : reached c s p = true) : Safe c log (drain s p) := by
  refine ⟨h.past, h.todo, h.sent, h.commit, h.seen, ?_⟩
  intro e he w m hw hm
  rcases List.mem_append.mp he with he | he
  · exact h.settled e he w m hw hm
  · obtain ⟨f, hf, rfl⟩ := List.mem_map.mp he
    obtain ⟨hf1, hf2⟩ := take_mem hf
    obtain ⟨k, h1, hl, _⟩ := hi.fl f hf1
    exact past_clear hi h hr hl (by rw [← h1]; simpa using hf2) hw hm

theorem safe_read {c : Cfg} {log : List Rec} {s : St} {r : Rec} (hn : 0 < c.n) (hpr : Proper log)
    (hh : c.hot = true) (hi : Inv c log s) (h : Safe c log s) (htd : s.todo = [])
    (hr : log[s.next]? = some r) : Safe c log (read c s s.next r) := by
  have hR := read_reads hn hi hr
  -- a new message is of a transaction which has not ended
  have hnew : ∀ (k x : Nat) (ok : Bool) (m : Msg), log[k]? = some (.fin x ok) → k < s.next → m.idx = s.next →
      txn log m.idx ≠ some x := by
    intro k x ok m hk hkn hm hx
    rw [hm, txn, hr] at hx
    exact hpr k s.next x ok r hkn hk hr (Option.some.inj hx)
  have hclear : ∀ w p, p ≤ 2 * s.next → Clear log s w p → Clear log (read c s s.next r) w p := by
    intro w p hp hc k x ok m hk he hm
    rcases pend_reads hR w with e | ⟨j, e, _, hji, _⟩
    · rw [e] at hm; exact hc k x ok m hk he hm
    · rw [e] at hm
      rcases List.mem_append.mp hm with hm | hm
      · exact hc k x ok m hk he hm
      · simp only [List.mem_singleton] at hm
        subst hm
        exact hnew k x ok m hk (by simp only [endp] at he; omega) hji
  refine ⟨?_, ?_, ?_, ?_, ?_, ?_⟩
  · intro k x ok hk hkn
    rw [hR.next] at hkn ⊢
    rw [hR.ptr]
    by_cases hke : k = s.next
    · subst hke
      rw [hr] at hk
      obtain rfl := Option.some.inj hk
      exact .inr ⟨rfl, by simp [read]⟩
    · rcases h.past k x ok hk (by omega) with h1 | ⟨_, h2⟩
      · exact .inl h1
      · rw [htd] at h2; cases h2
  · intro k x ok w m hk ha hm hx
    have hi' := inv_read hn hpr hi htd hr
    obtain ⟨hkn, _⟩ := ptr_end hi'.todo hk ha
    rw [hR.next] at hkn
    have hke : k = s.next := by omega
    subst hke
    rw [hr] at hk
    obtain rfl := Option.some.inj hk
    have hu := hi'.used w m x hm hx
    have hw := hi'.bufN w m hm
    have : w ∈ finUsers c s x := mem_finUsers.mpr ⟨hw, by simpa [read, sendAll] using hu⟩
    simp [read, hh, this]
  · intro k x ok w m hk hp hm
    rw [hR.ptr] at hp
    have hb := hi.bptr
    rcases hR.buf w with ⟨h1, _⟩ | ⟨j, h1, hji, _⟩
    · rw [h1] at hm; exact h.sent k x ok w m hk hp hm
    · rw [h1] at hm
      rcases List.mem_append.mp hm with hm | hm
      · exact h.sent k x ok w m hk hp hm
      · simp only [List.mem_singleton] at hm
        subst hm
        exact hnew k x ok m hk (by simp only [endp] at hp; omega) hji
  · intro w
    rw [hR.commit]
    exact hclear w _ (hi.bcommit w) (h.commit w)
  · intro w p h1 h2
    rw [hR.seen] at h1
    rw [hR.prev] at h2
    exact hclear w p (Nat.le_trans (hi.bprev w p h2) hi.bptr) (h.seen w p h1 h2)
  · intro e he w m hw hm
    rw [hR.settled] at he
    rcases pend_reads hR w with e' | ⟨j, e', _, hji, _⟩
    · rw [e'] at hm; exact h.settled e he w m hw hm
    · rw [e'] at hm
      rcases List.mem_append.mp hm with hm | hm
      · exact h.settled e he w m hw hm
      · simp only [List.mem_singleton] at hm
        subst hm
        obtain ⟨k, hk, hkn⟩ := hi.settled e he
        exact hnew k e.1 e.2 m hk hkn hji

theorem step_safe {c : Cfg} {log : List Rec} {s s' : St} {mv : Move} (hn : 0 < c.n) (hpr : Proper log)
    (hh : c.hot = true) (hi : Inv c log s) (h : Safe c log s) (hs : step c log s mv = some s') :
    Safe c log s' := by
  cases mv with
  | read =>
    simp only [step] at hs
    split at hs
    · rename_i r htd hr
      obtain rfl := Option.some.inj hs
      exact safe_read hn hpr hh hi h htd hr
    · cases hs
  | act =>
    simp only [step] at hs
    split at hs
    · cases hs
    · rename_i a rest htd
      exact safe_act hi h htd hs
  | send w =>
    obtain rfl := Option.some.inj hs
    exact safe_send h w
  | work w =>
    simp only [step] at hs
    split at hs
    · cases hs
    · rename_i m rest hq
      obtain rfl := Option.some.inj hs
      exact safe_work hpr hi h hq
  | poll w =>
    simp only [step] at hs
    split at hs
    · rename_i hq
      obtain rfl := Option.some.inj hs
      exact safe_poll hi h hq
    · cases hs
  | look w =>
    simp only [step] at hs
    split at hs
    · rename_i hw
      obtain rfl := Option.some.inj hs
      exact safe_look h hw
    · cases hs
  | drain p =>
    simp only [step] at hs
    split at hs
    · rename_i hr
      obtain rfl := Option.some.inj hs
      exact safe_drain hi h hr
    · cases hs

theorem run_safe {c : Cfg} {log : List Rec} {ms : List Move} {s s' : St} (hn : 0 < c.n)
    (hpr : Proper log) (hh : c.hot = true) (hi : Inv c log s) (h : Safe c log s)
    (hs : run c log s ms = some s') : Safe c log s' := by
  induction ms generalizing s with
  | nil => obtain rfl := Option.some.inj hs; exact h
  | cons m ms ih =>
    simp only [run] at hs
    split at hs
    · cases hs
    · rename_i s1 h1
      exact ih (step_inv hn hpr hi h1) (step_safe hn hpr hh hi h h1) hs

/-- The changes of a settled transaction have been applied. -/
theorem whole_settled {c : Cfg} {log : List Rec} {s : St} (hpr : Proper log)
    (hi : Inv c log s) (h : Safe c log s) {x : Nat} {ok : Bool} (hx : (x, ok) ∈ s.settled)
    (hn : 0 < c.n) : Whole c log s x ∧ NothingLeft s x := by
  obtain ⟨k, hk, hkn⟩ := hi.settled _ hx
  constructor
  · intro i g hg
    have hik : i < k := by
      rcases Nat.lt_trichotomy i k with h1 | h1 | h1
      · exact h1
      · subst h1; rw [hk] at hg; cases hg
      · exact absurd rfl (hpr k i x ok _ h1 hk hg)
    have hm := mem_share (c := c) (w := g % c.n) (j := s.next) hg (by omega) rfl
    rw [← hi.appl] at hm
    rcases List.mem_append.mp hm with hm | hm
    · exact hm
    · obtain ⟨m, hm1, hm2⟩ := decode_idx hm
      refine absurd ?_ (h.settled _ hx (g % c.n) m (Nat.mod_lt _ hn) hm1)
      rw [hm2, txn, hg]
      rfl
  · rintro w ⟨i, hw⟩
    have hu := hi.appUsed w x i (List.mem_append_left _ hw)
    rcases hi.ended w k x ok hk hkn hu with he | ⟨m, hm, hmi⟩
    · exact he
    · refine absurd ?_ (h.settled _ hx w m (hi.usedN w x hu) hm)
      rw [hmi, txn, hk]
      rfl

end Verif.Workers
