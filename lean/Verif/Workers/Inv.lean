import Verif.Workers.Spec
/-!
# What holds in every run
-/

namespace Verif.Workers

theorem set_same {α : Type} (f : Nat → α) (x : Nat) (a : α) : set f x a x = a := by simp [set]

theorem set_other {α : Type} (f : Nat → α) {x y : Nat} (a : α) (h : y ≠ x) : set f x a y = f y := by
  simp [set, h]

/-- The transaction of the `i`-th record. -/
def txn (log : List Rec) (i : Nat) : Option Nat := (log[i]?).map Rec.xid

/-- The messages a worker has not taken yet. -/
def pend (s : St) (w : Nat) : List Msg := s.queue w ++ s.buf w

/-- The transaction a worker is at after a message. -/
def nxt (c : Option Nat) : Body → Option Nat
  | .mod none => c
  | .mod (some x) => some x
  | .sp x => some x
  | .rb x _ => some x
  | .fin _ _ _ => none

/-- The change a message brings. -/
def brings (c : Option Nat) (m : Msg) : List (Option Nat × Nat) :=
  match m.body with
  | .mod o => [(nxt c (.mod o), m.idx)]
  | _ => []

/-- The changes some messages bring. -/
def decode (c : Option Nat) : List Msg → List (Option Nat × Nat)
  | [] => []
  | m :: ms => brings c m ++ decode (nxt c m.body) ms

/-- The transaction a worker is at after some messages. -/
def after (c : Option Nat) : List Msg → Option Nat
  | [] => c
  | m :: ms => after (nxt c m.body) ms

theorem decode_append (c : Option Nat) (a b : List Msg) :
    decode c (a ++ b) = decode c a ++ decode (after c a) b := by
  induction a generalizing c with
  | nil => rfl
  | cons m a ih => simp [decode, after, ih]

theorem after_append (c : Option Nat) (a b : List Msg) : after c (a ++ b) = after (after c a) b := by
  induction a generalizing c with
  | nil => rfl
  | cons m a ih => simp [after, ih]

theorem decode_idx {c : Option Nat} {ms : List Msg} {e : Option Nat × Nat} (h : e ∈ decode c ms) :
    ∃ m ∈ ms, m.idx = e.2 := by
  induction ms generalizing c with
  | nil => simp [decode] at h
  | cons m ms ih =>
    rcases List.mem_append.mp h with h | h
    · refine ⟨m, by simp, ?_⟩
      simp only [brings] at h
      split at h
      · simp at h; rw [h]
      · simp at h
    · obtain ⟨k, hk, he⟩ := ih h
      exact ⟨k, by simp [hk], he⟩

/-- The changes of the first `j` records for worker `w`. -/
def share (c : Cfg) (log : List Rec) (w j : Nat) : List (Option Nat × Nat) :=
  (List.range j).filterMap (fun (i : Nat) =>
    match log[i]? with
    | some (.mod x h) => if h % c.n = w then some (some x, i) else none
    | _ => none)

theorem share_succ (c : Cfg) (log : List Rec) (w j : Nat) :
    share c log w (j + 1) = share c log w j ++
      (match log[j]? with
       | some (.mod x h) => if h % c.n = w then [(some x, j)] else []
       | _ => []) := by
  rw [share, List.range_succ, List.filterMap_append]
  congr 1
  simp only [List.filterMap_cons, List.filterMap_nil]
  split
  · rename_i h
    split at h
    · split at h
      · cases h
      · rename_i hh; simp [hh]
    · rfl
  · rename_i b h
    split at h
    · split at h
      · rename_i hh; simp [hh]; exact (Option.some.inj h).symm
      · cases h
    · cases h

theorem mem_share {c : Cfg} {log : List Rec} {w j x h i : Nat} (hi : log[i]? = some (.mod x h))
    (hj : i < j) (hw : h % c.n = w) : (some x, i) ∈ share c log w j := by
  rw [share, List.mem_filterMap]
  exact ⟨i, List.mem_range.mpr hj, by simp [hi, hw]⟩

theorem share_mem {c : Cfg} {log : List Rec} {w j i : Nat} {o : Option Nat}
    (hm : (o, i) ∈ share c log w j) :
    ∃ x h, log[i]? = some (.mod x h) ∧ o = some x ∧ h % c.n = w ∧ i < j := by
  rw [share, List.mem_filterMap] at hm
  obtain ⟨k, hk, he⟩ := hm
  split at he
  · rename_i x h hl
    split at he
    · rename_i hh
      obtain ⟨rfl, rfl⟩ := Prod.mk.inj (Option.some.inj he)
      exact ⟨x, h, hl, rfl, hh, List.mem_range.mp hk⟩
    · cases he
  · cases he

/-- A message says what its record says. -/
def Fits (log : List Rec) (m : Msg) : Prop :=
  match m.body with
  | .mod _ => ∃ x h, log[m.idx]? = some (.mod x h)
  | .sp x => log[m.idx]? = some (.sp x)
  | .rb x p => log[m.idx]? = some (.rb x) ∧ p = startp m.idx
  | .fin x p ok => log[m.idx]? = some (.fin x ok) ∧ p = endp m.idx

/-- A position which is not inside a finish record. -/
def Good (log : List Rec) (p : Nat) : Prop :=
  ∀ k x ok, log[k]? = some (.fin x ok) → startp k ≤ p → endp k ≤ p

theorem good_zero (log : List Rec) : Good log 0 := by
  intro k x ok _ h
  simp [startp] at h

theorem good_end (log : List Rec) (k : Nat) : Good log (endp k) := by
  intro j x ok _ h
  simp only [startp, endp] at *
  omega

theorem good_start {log : List Rec} {k x : Nat} (hk : log[k]? = some (.rb x)) : Good log (startp k) := by
  intro j y ok hj h
  simp only [startp, endp] at *
  have : j ≠ k := by
    rintro rfl
    rw [hk] at hj
    cases hj
  omega

/-- What the startup process is about. -/
inductive Prog (c : Cfg) (log : List Rec) (s : St) : Prop where
  | free (ws : List Nat) (h : s.todo = ws.map .flush)
  | back (ws : List Nat) (k x : Nat) (hk : k + 1 = s.next) (hl : log[k]? = some (.rb x))
      (h : s.todo = ws.map .flush ++ [.ptr (startp k), .wait (startp k)]) (hp : s.ptr ≤ 2 * k)
  | backWait (k x : Nat) (hk : k + 1 = s.next) (hl : log[k]? = some (.rb x))
      (h : s.todo = [.wait (startp k)]) (hp : startp k ≤ s.ptr)
  | fin (ws : List Nat) (k x : Nat) (ok : Bool) (hk : k + 1 = s.next) (hl : log[k]? = some (.fin x ok))
      (h : s.todo = ws.map .flush ++
        [.ptr (endp k), if c.sys x || c.ckpt x then .now (startp k) x ok else .note x (startp k) ok])
      (hp : s.ptr ≤ 2 * k)
  | finAct (k x : Nat) (ok : Bool) (hk : k + 1 = s.next) (hl : log[k]? = some (.fin x ok))
      (h : s.todo = [if c.sys x || c.ckpt x then .now (startp k) x ok else .note x (startp k) ok])
      (hp : endp k ≤ s.ptr)

structure Inv (c : Cfg) (log : List Rec) (s : St) : Prop where
  lt : ∀ w m, m ∈ pend s w → m.idx < s.next
  sorted : ∀ w, (pend s w).Pairwise (fun a b => a.idx < b.idx)
  fits : ∀ w m, m ∈ pend s w → Fits log m
  appl : ∀ w, s.applied w ++ decode (s.cur w) (pend s w) = share c log w s.next
  cache : ∀ w x, s.cache w = some x → after (s.cur w) (pend s w) = some x ∧ s.used x w = true
  used : ∀ w m x, m ∈ s.buf w → txn log m.idx = some x → s.used x w = true ∨ c.ckpt x = true
  usedN : ∀ w x, s.used x w = true → w < c.n
  bufN : ∀ w m, m ∈ s.buf w → w < c.n
  appUsed : ∀ w x i, (some x, i) ∈ s.applied w ++ decode (s.cur w) (pend s w) → s.used x w = true
  bptr : s.ptr ≤ 2 * s.next
  bcommit : ∀ w, s.commit w ≤ 2 * s.next
  bprev : ∀ w p, s.prev w = some p → p ≤ s.ptr
  gptr : Good log s.ptr
  gcommit : ∀ w, Good log (s.commit w)
  gprev : ∀ w p, s.prev w = some p → Good log p
  todo : Prog c log s
  fl : ∀ e ∈ s.fl, ∃ k, e.2.1 = startp k ∧ log[k]? = some (.fin e.1 e.2.2) ∧ k < s.next
  settled : ∀ e ∈ s.settled, ∃ k : Nat, log[k]? = some (.fin e.1 e.2) ∧ k < s.next
  ended : ∀ w k x ok, log[k]? = some (.fin x ok) → k < s.next → s.used x w = true →
    x ∈ s.ended w ∨ ∃ m ∈ pend s w, m.idx = k

theorem init_inv (c : Cfg) (log : List Rec) : Inv c log init := by
  refine ⟨?_, ?_, ?_, ?_, ?_, ?_, ?_, ?_, ?_, Nat.zero_le _, fun _ => Nat.zero_le _, ?_, good_zero log,
    fun _ => good_zero log, ?_, .free [] rfl, ?_, ?_, ?_⟩ <;> simp [init, pend, decode, share]

theorem pend_flush (s : St) (w v : Nat) : pend (flush s w) v = pend s v := by
  by_cases h : v = w
  · subst h; simp [pend, flush, set_same]
  · simp [pend, flush, set_other _ _ h]

theorem buf_flush {s : St} {w v : Nat} {m : Msg} (h : m ∈ (flush s w).buf v) : m ∈ s.buf v ∧ v ≠ w := by
  by_cases hv : v = w
  · subst hv; simp [flush, set_same] at h
  · simp [flush, set_other _ _ hv] at h; exact ⟨h, hv⟩

/-- A buffer sent; the rest of the state but `todo` stays. -/
theorem inv_flush {c : Cfg} {log : List Rec} {s : St} (h : Inv c log s) (w : Nat) (td : List Act)
    (ht : Prog c log { flush s w with todo := td }) : Inv c log { flush s w with todo := td } := by
  have hp : ∀ v, pend { flush s w with todo := td } v = pend s v := pend_flush s w
  refine ⟨?_, ?_, ?_, ?_, ?_, ?_, h.usedN, ?_, ?_, h.bptr, h.bcommit, h.bprev, h.gptr, h.gcommit, h.gprev,
    ht, h.fl, h.settled, ?_⟩
  · intro v m hm; rw [hp] at hm; exact h.lt v m hm
  · intro v; rw [hp]; exact h.sorted v
  · intro v m hm; rw [hp] at hm; exact h.fits v m hm
  · intro v; rw [hp]; exact h.appl v
  · intro v x hx; rw [hp]; exact h.cache v x hx
  · intro v m x hm; exact h.used v m x (buf_flush hm).1
  · intro v m hm; exact h.bufN v m (buf_flush hm).1
  · intro v x i; rw [hp]; exact h.appUsed v x i
  · intro v k x ok hk hn hu; rw [hp]; exact h.ended v k x ok hk hn hu

theorem inv_send {c : Cfg} {log : List Rec} {s : St} (h : Inv c log s) (w : Nat) :
    Inv c log (flush s w) := by
  have := inv_flush h w s.todo (by
    cases h.todo with
    | free ws h1 => exact .free ws h1
    | back ws k x hk hl h1 hp => exact .back ws k x hk hl h1 hp
    | backWait k x hk hl h1 hp => exact .backWait k x hk hl h1 hp
    | fin ws k x ok hk hl h1 hp => exact .fin ws k x ok hk hl h1 hp
    | finAct k x ok hk hl h1 hp => exact .finAct k x ok hk hl h1 hp)
  exact this

/-- A step of the startup process after reading. -/
theorem inv_act {c : Cfg} {log : List Rec} {s s' : St} {a : Act} {rest : List Act} (h : Inv c log s)
    (htd : s.todo = a :: rest) (hs : act c s a rest = some s') : Inv c log s' := by
  have other : ∀ {td : List Act} (pr : Prog c log { s with todo := td }),
      Inv c log { s with todo := td } := by
    intro td pr
    exact ⟨h.lt, h.sorted, h.fits, h.appl, h.cache, h.used, h.usedN, h.bufN, h.appUsed, h.bptr, h.bcommit,
      h.bprev, h.gptr, h.gcommit, h.gprev, pr, h.fl, h.settled, h.ended⟩
  have ptrs : ∀ {td : List Act} {p : Nat} (_ : s.ptr ≤ p) (_ : p ≤ 2 * s.next) (_ : Good log p)
      (pr : Prog c log { s with ptr := p, todo := td }),
      Inv c log { s with ptr := p, todo := td } := by
    intro td p h1 h2 h3 pr
    exact ⟨h.lt, h.sorted, h.fits, h.appl, h.cache, h.used, h.usedN, h.bufN, h.appUsed, h2, h.bcommit,
      fun w q hq => Nat.le_trans (h.bprev w q hq) h1, h3, h.gcommit, h.gprev, pr, h.fl, h.settled, h.ended⟩
  have fin_case : ∀ (k x : Nat) (ok : Bool), k + 1 = s.next → log[k]? = some (.fin x ok) →
      a = (if c.sys x || c.ckpt x then .now (startp k) x ok else .note x (startp k) ok) → rest = [] →
      Inv c log s' := by
    intro k x ok hk hl ha hr
    subst hr
    split at ha
    · subst ha
      simp only [act] at hs
      split at hs
      · obtain rfl := Option.some.inj hs
        refine ⟨h.lt, h.sorted, h.fits, h.appl, h.cache, h.used, h.usedN, h.bufN, h.appUsed, h.bptr,
          h.bcommit, h.bprev, h.gptr, h.gcommit, h.gprev, .free [] rfl, h.fl, ?_, h.ended⟩
        intro e he
        rcases List.mem_append.mp he with he | he
        · exact h.settled e he
        · simp only [List.mem_singleton] at he
          subst he
          exact ⟨k, hl, by show k < s.next; omega⟩
      · cases hs
    · subst ha
      simp only [act] at hs
      obtain rfl := Option.some.inj hs
      refine ⟨h.lt, h.sorted, h.fits, h.appl, h.cache, h.used, h.usedN, h.bufN, h.appUsed, h.bptr,
        h.bcommit, h.bprev, h.gptr, h.gcommit, h.gprev, .free [] rfl, ?_, h.settled, h.ended⟩
      intro e he
      rcases List.mem_append.mp he with he | he
      · exact h.fl e he
      · simp only [List.mem_singleton] at he
        subst he
        exact ⟨k, rfl, hl, by show k < s.next; omega⟩
  cases h.todo with
  | free ws h1 =>
    rw [htd] at h1
    cases ws with
    | nil => cases h1
    | cons w ws =>
      obtain ⟨rfl, rfl⟩ := List.cons.inj h1
      obtain rfl := Option.some.inj hs
      exact inv_flush h w _ (.free ws rfl)
  | back ws k x hk hl h1 hp =>
    rw [htd] at h1
    cases ws with
    | nil =>
      obtain ⟨rfl, rfl⟩ := List.cons.inj h1
      obtain rfl := Option.some.inj hs
      refine ptrs (by simp only [startp]; omega) (by simp only [startp]; omega) (good_start hl)
        (.backWait k x hk hl rfl (Nat.le_refl _))
    | cons w ws =>
      obtain ⟨rfl, rfl⟩ := List.cons.inj h1
      obtain rfl := Option.some.inj hs
      exact inv_flush h w _ (.back ws k x hk hl rfl hp)
  | backWait k x hk hl h1 hp =>
    rw [htd] at h1
    obtain ⟨rfl, rfl⟩ := List.cons.inj h1
    simp only [act] at hs
    split at hs
    · obtain rfl := Option.some.inj hs
      exact other (.free [] rfl)
    · cases hs
  | fin ws k x ok hk hl h1 hp =>
    rw [htd] at h1
    cases ws with
    | nil =>
      obtain ⟨rfl, rfl⟩ := List.cons.inj h1
      obtain rfl := Option.some.inj hs
      refine ptrs (by simp only [endp]; omega) (by simp only [endp]; omega) (good_end log k)
        (.finAct k x ok hk hl rfl (Nat.le_refl _))
    | cons w ws =>
      obtain ⟨rfl, rfl⟩ := List.cons.inj h1
      obtain rfl := Option.some.inj hs
      exact inv_flush h w _ (.fin ws k x ok hk hl rfl hp)
  | finAct k x ok hk hl h1 hp =>
    rw [htd] at h1
    obtain ⟨rfl, rfl⟩ := List.cons.inj h1
    exact fin_case k x ok hk hl rfl rfl

/-- A worker takes a message. -/
theorem work_state {s : St} {w : Nat} {m : Msg} {rest : List Msg} :
    (work s w m rest).queue = set s.queue w rest ∧ (work s w m rest).buf = s.buf ∧
    (work s w m rest).cur = set s.cur w (nxt (s.cur w) m.body) ∧
    (work s w m rest).applied = set s.applied w (s.applied w ++ brings (s.cur w) m) ∧
    (work s w m rest).next = s.next ∧ (work s w m rest).todo = s.todo ∧
    (work s w m rest).cache = s.cache ∧ (work s w m rest).used = s.used ∧
    (work s w m rest).fl = s.fl ∧ (work s w m rest).ptr = s.ptr ∧
    (work s w m rest).settled = s.settled ∧ (work s w m rest).prev = set s.prev w none ∧
    (work s w m rest).seen = set s.seen w false := by
  have happ : set s.applied w (s.applied w) = s.applied := by
    funext v; by_cases hv : v = w
    · subst hv; exact set_same _ _ _
    · exact set_other _ _ hv
  cases hb : m.body with
  | mod o => cases o <;> simp [work, hb, brings, nxt]
  | sp x => simp [work, hb, brings, nxt, happ]
  | rb x p => simp [work, hb, brings, nxt, happ]
  | fin x p ok => simp [work, hb, brings, nxt, happ]

/-- The position a worker is at after a message. -/
theorem work_commit {s : St} {w : Nat} {m : Msg} {rest : List Msg} (v : Nat) :
    ((work s w m rest).commit v = s.commit v ∧ ∀ x p ok, m.body ≠ .fin x p ok) ∨
    (v = w ∧ ∃ x p, m.body = .rb x p ∧ (work s w m rest).commit v = p) ∨
    (v = w ∧ ∃ x p ok, m.body = .fin x p ok ∧ (work s w m rest).commit v = p) ∨
    (v ≠ w ∧ (work s w m rest).commit v = s.commit v) := by
  by_cases hv : v = w
  · subst hv
    cases hb : m.body with
    | mod o => cases o <;> simp [work, hb]
    | sp x => simp [work, hb]
    | rb x p => simp [work, hb, set_same]
    | fin x p ok => simp [work, hb, set_same]
  · refine .inr (.inr (.inr ⟨hv, ?_⟩))
    cases hb : m.body with
    | mod o => cases o <;> simp [work, hb]
    | sp x => simp [work, hb]
    | rb x p => simp [work, hb, set_other _ _ hv]
    | fin x p ok => simp [work, hb, set_other _ _ hv]

theorem work_ended {s : St} {w : Nat} {m : Msg} {rest : List Msg} {v x : Nat} :
    (x ∈ s.ended v → x ∈ (work s w m rest).ended v) ∧
    (∀ p ok, m.body = .fin x p ok → x ∈ (work s w m rest).ended w) := by
  constructor
  · intro hx
    cases hb : m.body with
    | mod o => cases o <;> simpa [work, hb] using hx
    | sp y => simpa [work, hb] using hx
    | rb y p => simpa [work, hb] using hx
    | fin y p ok =>
      simp only [work, hb]
      by_cases hv : v = w
      · subst hv; rw [set_same]; simp [hx]
      · rw [set_other _ _ hv]; exact hx
  · intro p ok hb
    simp only [work, hb, set_same]
    simp

theorem pend_work {s : St} {w : Nat} {m : Msg} {rest : List Msg} (hq : s.queue w = m :: rest) :
    pend s w = m :: pend (work s w m rest) w ∧ ∀ v, v ≠ w → pend (work s w m rest) v = pend s v := by
  obtain ⟨h1, h2, _⟩ := work_state (s := s) (w := w) (m := m) (rest := rest)
  constructor
  · simp [pend, hq, h1, h2, set_same]
  · intro v hv
    simp [pend, h1, h2, set_other _ _ hv]

theorem pend_work_sub {s : St} {w : Nat} {m : Msg} {rest : List Msg} (hq : s.queue w = m :: rest)
    {v : Nat} {k : Msg} (hk : k ∈ pend (work s w m rest) v) : k ∈ pend s v := by
  obtain ⟨h1, h2⟩ := pend_work hq
  by_cases hv : v = w
  · subst hv; rw [h1]; simp [hk]
  · rw [← h2 v hv]; exact hk

theorem inv_work {c : Cfg} {log : List Rec} {s : St} {w : Nat} {m : Msg} {rest : List Msg}
    (h : Inv c log s) (hq : s.queue w = m :: rest) : Inv c log (work s w m rest) := by
  obtain ⟨e1, e2, e3, e4, e5, e6, e7, e8, e9, e10, e11, e12, e13⟩ :=
    work_state (s := s) (w := w) (m := m) (rest := rest)
  obtain ⟨p1, p2⟩ := pend_work hq
  have hm : m ∈ pend s w := by rw [p1]; simp
  have hmlt := h.lt w m hm
  have happ : ∀ v, (work s w m rest).applied v ++ decode ((work s w m rest).cur v) (pend (work s w m rest) v) =
      s.applied v ++ decode (s.cur v) (pend s v) := by
    intro v
    by_cases hv : v = w
    · subst hv
      rw [e3, e4, set_same, set_same, p1, List.append_assoc]
      rfl
    · rw [e3, e4, set_other _ _ hv, set_other _ _ hv, p2 v hv]
  have haft : ∀ v, after ((work s w m rest).cur v) (pend (work s w m rest) v) =
      after (s.cur v) (pend s v) := by
    intro v
    by_cases hv : v = w
    · subst hv
      rw [e3, set_same, p1]
      rfl
    · rw [e3, set_other _ _ hv, p2 v hv]
  have hfit := h.fits w m hm
  refine ⟨?_, ?_, ?_, ?_, ?_, ?_, ?_, ?_, ?_, ?_, ?_, ?_, ?_, ?_, ?_, ?_, ?_, ?_, ?_⟩
  · intro v k hk; rw [e5]; exact h.lt v k (pend_work_sub hq hk)
  · intro v
    by_cases hv : v = w
    · subst hv
      have := h.sorted v
      rw [p1] at this
      exact (List.pairwise_cons.mp this).2
    · rw [p2 v hv]; exact h.sorted v
  · intro v k hk; exact h.fits v k (pend_work_sub hq hk)
  · intro v; rw [happ, e5]; exact h.appl v
  · intro v x hx; rw [haft, e8]; rw [e7] at hx; exact h.cache v x hx
  · rw [e2, e8]; exact h.used
  · rw [e8]; exact h.usedN
  · rw [e2]; exact h.bufN
  · intro v x i; rw [happ, e8]; exact h.appUsed v x i
  · rw [e10, e5]; exact h.bptr
  · intro v
    rw [e5]
    rcases work_commit (s := s) (w := w) (m := m) (rest := rest) v with
      ⟨hc, _⟩ | ⟨_, x, p, hb, hc⟩ | ⟨_, x, p, ok, hb, hc⟩ | ⟨_, hc⟩
    · rw [hc]; exact h.bcommit v
    · rw [hc]
      simp only [Fits, hb] at hfit
      rw [hfit.2]; simp only [startp]; omega
    · rw [hc]
      simp only [Fits, hb] at hfit
      rw [hfit.2]; simp only [endp]; omega
    · rw [hc]; exact h.bcommit v
  · intro v p hp
    rw [e12] at hp
    rw [e10]
    by_cases hv : v = w
    · subst hv; rw [set_same] at hp; cases hp
    · rw [set_other _ _ hv] at hp; exact h.bprev v p hp
  · rw [e10]; exact h.gptr
  · intro v
    rcases work_commit (s := s) (w := w) (m := m) (rest := rest) v with
      ⟨hc, _⟩ | ⟨_, x, p, hb, hc⟩ | ⟨_, x, p, ok, hb, hc⟩ | ⟨_, hc⟩
    · rw [hc]; exact h.gcommit v
    · rw [hc]
      simp only [Fits, hb] at hfit
      rw [hfit.2]; exact good_start hfit.1
    · rw [hc]
      simp only [Fits, hb] at hfit
      rw [hfit.2]; exact good_end log _
    · rw [hc]; exact h.gcommit v
  · intro v p hp
    rw [e12] at hp
    by_cases hv : v = w
    · subst hv; rw [set_same] at hp; cases hp
    · rw [set_other _ _ hv] at hp; exact h.gprev v p hp
  · cases h.todo with
    | free ws h1 => exact .free ws (by rw [e6]; exact h1)
    | back ws k x hk hl h1 hp =>
      exact .back ws k x (by rw [e5]; exact hk) hl (by rw [e6]; exact h1) (by rw [e10]; exact hp)
    | backWait k x hk hl h1 hp =>
      exact .backWait k x (by rw [e5]; exact hk) hl (by rw [e6]; exact h1) (by rw [e10]; exact hp)
    | fin ws k x ok hk hl h1 hp =>
      exact .fin ws k x ok (by rw [e5]; exact hk) hl (by rw [e6]; exact h1) (by rw [e10]; exact hp)
    | finAct k x ok hk hl h1 hp =>
      exact .finAct k x ok (by rw [e5]; exact hk) hl (by rw [e6]; exact h1) (by rw [e10]; exact hp)
  · rw [e9, e5]; exact h.fl
  · rw [e11, e5]; exact h.settled
  · intro v k x ok hk hn hu
    rw [e5] at hn
    rw [e8] at hu
    rcases h.ended v k x ok hk hn hu with he | ⟨j, hj, hji⟩
    · exact .inl (work_ended.1 he)
    · by_cases hv : v = w
      · subst hv
        rw [p1] at hj
        rcases List.mem_cons.mp hj with rfl | hj
        · left
          simp only [Fits] at hfit
          cases hb : j.body with
          | mod o =>
            simp only [hb] at hfit
            obtain ⟨y, g, hyg⟩ := hfit
            rw [hji, hk] at hyg; cases hyg
          | sp y => simp only [hb] at hfit; rw [hji, hk] at hfit; cases hfit
          | rb y p => simp only [hb] at hfit; rw [hji, hk] at hfit; cases hfit.1
          | fin y p ok' =>
            simp only [hb] at hfit
            rw [hji, hk] at hfit
            obtain ⟨rfl, rfl⟩ := Rec.fin.inj (Option.some.inj hfit.1)
            exact (work_ended (v := v)).2 p ok hb
        · exact .inr ⟨j, hj, hji⟩
      · rw [p2 v hv]; exact .inr ⟨j, hj, hji⟩

theorem inv_poll {c : Cfg} {log : List Rec} {s : St} {f : Nat → Bool}
    (h : Inv c log s) : Inv c log { s with seen := f } := by
  refine ⟨h.lt, h.sorted, h.fits, h.appl, h.cache, h.used, h.usedN, h.bufN, h.appUsed, h.bptr, h.bcommit,
    h.bprev, h.gptr, h.gcommit, h.gprev, ?_, h.fl, h.settled, h.ended⟩
  cases h.todo with
  | free ws h1 => exact .free ws h1
  | back ws k x hk hl h1 hp => exact .back ws k x hk hl h1 hp
  | backWait k x hk hl h1 hp => exact .backWait k x hk hl h1 hp
  | fin ws k x ok hk hl h1 hp => exact .fin ws k x ok hk hl h1 hp
  | finAct k x ok hk hl h1 hp => exact .finAct k x ok hk hl h1 hp

theorem inv_ptrs {c : Cfg} {log : List Rec} {s : St} {f : Nat → Bool} {cm : Nat → Nat}
    {pv : Nat → Option Nat} (h : Inv c log s) (h1 : ∀ w, cm w ≤ 2 * s.next) (h2 : ∀ w, Good log (cm w))
    (h3 : ∀ w p, pv w = some p → p ≤ s.ptr) (h4 : ∀ w p, pv w = some p → Good log p) :
    Inv c log { s with seen := f, commit := cm, prev := pv } := by
  refine ⟨h.lt, h.sorted, h.fits, h.appl, h.cache, h.used, h.usedN, h.bufN, h.appUsed, h.bptr, h1,
    h3, h.gptr, h2, h4, ?_, h.fl, h.settled, h.ended⟩
  cases h.todo with
  | free ws h1 => exact .free ws h1
  | back ws k x hk hl h1 hp => exact .back ws k x hk hl h1 hp
  | backWait k x hk hl h1 hp => exact .backWait k x hk hl h1 hp
  | fin ws k x ok hk hl h1 hp => exact .fin ws k x ok hk hl h1 hp
  | finAct k x ok hk hl h1 hp => exact .finAct k x ok hk hl h1 hp

/-- What `look` does: nothing but the two positions of the worker. -/
theorem look_state (s : St) (w : Nat) : ∃ cm pv,
    look s w = { s with seen := set s.seen w false, commit := cm, prev := pv } ∧
    (∀ v, v ≠ w → cm v = s.commit v ∧ pv v = s.prev v) ∧
    (cm w = s.commit w ∨ s.prev w = some (cm w)) ∧
    (∀ p, pv w = some p → p = s.ptr) := by
  simp only [look]
  split
  · rename_i hlt
    split
    · exact ⟨s.commit, _, rfl, fun v hv => ⟨rfl, set_other _ _ hv⟩, .inl rfl,
        fun p hp => by rw [set_same] at hp; exact (Option.some.inj hp).symm⟩
    · rename_i p hp
      refine ⟨_, _, rfl, fun v hv => ⟨set_other _ _ hv, set_other _ _ hv⟩, .inr ?_, ?_⟩
      · rw [set_same]; exact hp
      · intro q hq
        rw [set_same] at hq
        split at hq
        · cases hq
        · exact (Option.some.inj hq).symm
  · exact ⟨s.commit, _, rfl, fun v hv => ⟨rfl, set_other _ _ hv⟩, .inl rfl,
      fun p hp => by rw [set_same] at hp; cases hp⟩

theorem inv_look {c : Cfg} {log : List Rec} {s : St} (w : Nat) (h : Inv c log s) :
    Inv c log (look s w) := by
  obtain ⟨cm, pv, e, ho, hw, hp⟩ := look_state s w
  rw [e]
  refine inv_ptrs h ?_ ?_ ?_ ?_
  · intro v
    by_cases hv : v = w
    · subst hv
      rcases hw with hw | hw
      · rw [hw]; exact h.bcommit v
      · exact Nat.le_trans (h.bprev v _ hw) h.bptr
    · rw [(ho v hv).1]; exact h.bcommit v
  · intro v
    by_cases hv : v = w
    · subst hv
      rcases hw with hw | hw
      · rw [hw]; exact h.gcommit v
      · exact h.gprev v _ hw
    · rw [(ho v hv).1]; exact h.gcommit v
  · intro v p hpv
    by_cases hv : v = w
    · subst hv
      rw [hp p hpv]; exact Nat.le_refl _
    · rw [(ho v hv).2] at hpv; exact h.bprev v p hpv
  · intro v p hpv
    by_cases hv : v = w
    · subst hv
      rw [hp p hpv]; exact h.gptr
    · rw [(ho v hv).2] at hpv; exact h.gprev v p hpv

theorem take_mem {α : Type} {p : α → Bool} {l : List α} {a : α} (h : a ∈ l.takeWhile p) :
    a ∈ l ∧ p a = true := by
  induction l with
  | nil => simp at h
  | cons b l ih =>
    rw [List.takeWhile_cons] at h
    split at h
    · rcases List.mem_cons.mp h with rfl | h
      · rename_i hb; exact ⟨by simp, hb⟩
      · exact ⟨by simp [(ih h).1], (ih h).2⟩
    · simp at h

theorem inv_drain {c : Cfg} {log : List Rec} {s : St} (p : Nat) (h : Inv c log s) :
    Inv c log (drain s p) := by
  refine ⟨h.lt, h.sorted, h.fits, h.appl, h.cache, h.used, h.usedN, h.bufN, h.appUsed, h.bptr, h.bcommit,
    h.bprev, h.gptr, h.gcommit, h.gprev, ?_, ?_, ?_, h.ended⟩
  · cases h.todo with
    | free ws h1 => exact .free ws h1
    | back ws k x hk hl h1 hp => exact .back ws k x hk hl h1 hp
    | backWait k x hk hl h1 hp => exact .backWait k x hk hl h1 hp
    | fin ws k x ok hk hl h1 hp => exact .fin ws k x ok hk hl h1 hp
    | finAct k x ok hk hl h1 hp => exact .finAct k x ok hk hl h1 hp
  · intro e he
    exact h.fl e ((List.dropWhile_suffix _).subset he)
  · intro e he
    rcases List.mem_append.mp he with he | he
    · exact h.settled e he
    · obtain ⟨f, hf, rfl⟩ := List.mem_map.mp he
      obtain ⟨k, _, hl, hk⟩ := h.fl f (take_mem hf).1
      exact ⟨k, hl, hk⟩

/-- What reading a record does to the buffers: at most one message at the end of each. -/
structure Reads (c : Cfg) (log : List Rec) (s s' : St) (k : Nat) (r : Rec) : Prop where
  queue : s'.queue = s.queue
  cur : s'.cur = s.cur
  applied : s'.applied = s.applied
  ended : s'.ended = s.ended
  fl : s'.fl = s.fl
  settled : s'.settled = s.settled
  ptr : s'.ptr = s.ptr
  commit : s'.commit = s.commit
  prev : s'.prev = s.prev
  seen : s'.seen = s.seen
  next : s'.next = k + 1
  mono : ∀ x w, s.used x w = true → s'.used x w = true
  onlyOwn : ∀ x w, s'.used x w = true → s.used x w = true ∨ (x = r.xid ∧ w < c.n)
  buf : ∀ w, (s'.buf w = s.buf w ∧ s'.cache w = s.cache w ∧ (∀ x h, r = .mod x h → h % c.n ≠ w)) ∨
    ∃ m, s'.buf w = s.buf w ++ [m] ∧ m.idx = k ∧ Fits log m ∧ w < c.n ∧
      (s'.used r.xid w = true ∨ c.ckpt r.xid = true) ∧
      ((s'.cache w = none ∧ ∀ cu, brings cu m = [] ∧ ∀ x h, r ≠ .mod x h) ∨
       ∃ x h, r = .mod x h ∧ h % c.n = w ∧ s'.cache w = some x ∧ s'.used x w = true ∧
        ((s.cache w = some x ∧ m.body = .mod none) ∨ m.body = .mod (some x)))
  fin : ∀ x ok w, r = .fin x ok → s.used x w = true → w < c.n → ∃ m ∈ s'.buf w, m.idx = k

theorem mem_users {c : Cfg} {s : St} {x w : Nat} : w ∈ users c s x ↔ w < c.n ∧ s.used x w = true := by
  simp [users]

theorem mem_finUsers {c : Cfg} {s : St} {x w : Nat} :
    w ∈ finUsers c s x ↔ w < c.n ∧ (s.used x w = true ∨ c.ckpt x = true) := by
  simp [finUsers]

theorem read_reads {c : Cfg} {log : List Rec} {s : St} {r : Rec} (hn : 0 < c.n) (h : Inv c log s)
    (hr : log[s.next]? = some r) : Reads c log s (read c s s.next r) s.next r := by
  cases r with
  | mod x g =>
    by_cases hc : s.cache (g % c.n) = some x
    · refine ⟨?_, ?_, ?_, ?_, ?_, ?_, ?_, ?_, ?_, ?_, ?_, ?_, ?_, ?_, ?_⟩ <;>
        simp only [read, sendMod, hc, if_true]
      · exact fun _ _ hu => hu
      · exact fun _ _ hu => .inl hu
      · intro w
        by_cases hw : w = g % c.n
        · subst hw
          refine .inr ⟨⟨s.next, .mod none⟩, set_same _ _ _, rfl, ⟨x, g, hr⟩, Nat.mod_lt _ hn,
            .inl (h.cache _ _ hc).2, .inr ⟨x, g, rfl, rfl, hc, (h.cache _ _ hc).2, .inl ⟨hc, rfl⟩⟩⟩
        · refine .inl ⟨set_other _ _ hw, by trivial, ?_⟩
          intro y g' hy
          obtain ⟨rfl, rfl⟩ := Rec.mod.inj hy
          exact fun h => hw h.symm
      · intro y ok w hy; cases hy
    · refine ⟨?_, ?_, ?_, ?_, ?_, ?_, ?_, ?_, ?_, ?_, ?_, ?_, ?_, ?_, ?_⟩ <;>
        simp only [read, sendMod, hc, if_false]
      · intro y w hu; split <;> simp [hu]
      · intro y w hu
        split at hu
        · rename_i hh
          exact .inr ⟨hh.1, by rw [hh.2]; exact Nat.mod_lt _ hn⟩
        · exact .inl hu
      · intro w
        by_cases hw : w = g % c.n
        · subst hw
          refine .inr ⟨⟨s.next, .mod (some x)⟩, set_same _ _ _, rfl, ⟨x, g, hr⟩, Nat.mod_lt _ hn,
            .inl (by simp [Rec.xid]), .inr ⟨x, g, rfl, rfl, set_same _ _ _, by simp, .inr rfl⟩⟩
        · refine .inl ⟨set_other _ _ hw, set_other _ _ hw, ?_⟩
          intro y g' hy
          obtain ⟨rfl, rfl⟩ := Rec.mod.inj hy
          exact fun h => hw h.symm
      · intro y ok w hy; cases hy
  | sp x =>
    refine ⟨?_, ?_, ?_, ?_, ?_, ?_, ?_, ?_, ?_, ?_, ?_, ?_, ?_, ?_, ?_⟩ <;> simp only [read, sendAll]
    · exact fun _ _ hu => hu
    · exact fun _ _ hu => .inl hu
    · intro w
      by_cases hw : w ∈ users c s x
      · simp only [hw, if_true]
        obtain ⟨hwn, hu⟩ := mem_users.mp hw
        exact .inr ⟨_, rfl, rfl, hr, hwn, .inl hu, .inl ⟨by trivial, fun cu => ⟨rfl, by simp⟩⟩⟩
      · simp only [hw, if_false]
        exact .inl ⟨by trivial, by trivial, by simp⟩
    · intro y ok w hy; cases hy
  | rb x =>
    refine ⟨?_, ?_, ?_, ?_, ?_, ?_, ?_, ?_, ?_, ?_, ?_, ?_, ?_, ?_, ?_⟩ <;> simp only [read, sendAll]
    · exact fun _ _ hu => hu
    · exact fun _ _ hu => .inl hu
    · intro w
      by_cases hw : w ∈ users c s x
      · simp only [hw, if_true]
        obtain ⟨hwn, hu⟩ := mem_users.mp hw
        exact .inr ⟨_, rfl, rfl, ⟨hr, rfl⟩, hwn, .inl hu, .inl ⟨by trivial, fun cu => ⟨rfl, by simp⟩⟩⟩
      · simp only [hw, if_false]
        exact .inl ⟨by trivial, by trivial, by simp⟩
    · intro y ok w hy; cases hy
  | fin x ok =>
    refine ⟨?_, ?_, ?_, ?_, ?_, ?_, ?_, ?_, ?_, ?_, ?_, ?_, ?_, ?_, ?_⟩ <;> simp only [read, sendAll]
    · exact fun _ _ hu => hu
    · exact fun _ _ hu => .inl hu
    · intro w
      by_cases hw : w ∈ finUsers c s x
      · simp only [hw, if_true]
        obtain ⟨hwn, hu⟩ := mem_finUsers.mp hw
        exact .inr ⟨_, rfl, rfl, ⟨hr, rfl⟩, hwn, hu, .inl ⟨by trivial, fun cu => ⟨rfl, by simp⟩⟩⟩
      · simp only [hw, if_false]
        exact .inl ⟨by trivial, by trivial, by simp⟩
    · intro y ok' w hy hu hwn
      obtain ⟨rfl, rfl⟩ := Rec.fin.inj hy
      have : w ∈ finUsers c s x := mem_finUsers.mpr ⟨hwn, .inl hu⟩
      simp only [this, if_true]
      exact ⟨⟨s.next, .fin x (endp s.next) ok⟩, by simp, rfl⟩

theorem pend_reads {c : Cfg} {log : List Rec} {s s' : St} {k : Nat} {r : Rec}
    (hr : Reads c log s s' k r) (w : Nat) :
    pend s' w = pend s w ∨ ∃ m, pend s' w = pend s w ++ [m] ∧ s'.buf w = s.buf w ++ [m] ∧ m.idx = k ∧
      Fits log m := by
  rcases hr.buf w with ⟨h1, _⟩ | ⟨m, h1, h2, h3, _⟩
  · left; simp [pend, hr.queue, h1]
  · exact .inr ⟨m, by simp [pend, hr.queue, h1], h1, h2, h3⟩

theorem inv_read {c : Cfg} {log : List Rec} {s : St} {r : Rec} (hn : 0 < c.n) (hpr : Proper log)
    (h : Inv c log s) (htd : s.todo = []) (hr : log[s.next]? = some r) :
    Inv c log (read c s s.next r) := by
  have hR := read_reads hn h hr
  have hmem : ∀ w m, m ∈ pend (read c s s.next r) w → m ∈ pend s w ∨ (m.idx = s.next ∧ Fits log m) := by
    intro w m hm
    rcases pend_reads hR w with e | ⟨k, e, _, hi, hf⟩
    · rw [e] at hm; exact .inl hm
    · rw [e] at hm
      rcases List.mem_append.mp hm with hm | hm
      · exact .inl hm
      · simp only [List.mem_singleton] at hm
        subst hm
        exact .inr ⟨hi, hf⟩
  have hdec : ∀ w, decode (s.cur w) (pend (read c s s.next r) w) = decode (s.cur w) (pend s w) ++
      (match log[s.next]? with
       | some (.mod x g) => if g % c.n = w then [(some x, s.next)] else []
       | _ => []) := by
    intro w
    rw [hr]
    rcases hR.buf w with ⟨h1, _, h3⟩ | ⟨m, h1, h2, _, _, _, hca⟩
    · have e : pend (read c s s.next r) w = pend s w := by simp [pend, hR.queue, h1]
      rw [e]
      split
      · rename_i x g hx
        rw [if_neg (h3 x g (Option.some.inj hx))]
        simp
      · simp
    · have e : pend (read c s s.next r) w = pend s w ++ [m] := by simp [pend, hR.queue, h1]
      rw [e, decode_append]
      congr 1
      rcases hca with ⟨_, hb⟩ | ⟨x, g, rfl, hg, _, _, hb⟩
      · have hb1 := (hb (after (s.cur w) (pend s w))).1
        have hb2 := (hb none).2
        simp only [decode, hb1, List.append_nil]
        split
        · rename_i x g hx
          exact absurd (Option.some.inj hx) (hb2 x g)
        · rfl
      · simp only [hg, if_true]
        rcases hb with ⟨hc, hb⟩ | hb
        · simp [decode, brings, hb, nxt, (h.cache w x hc).1, h2]
        · simp [decode, brings, hb, nxt, h2]
  have huse : ∀ w m x, m ∈ (read c s s.next r).buf w → txn log m.idx = some x →
      (read c s s.next r).used x w = true ∨ c.ckpt x = true := by
    intro w m x hm hx
    have old : m ∈ s.buf w → (read c s s.next r).used x w = true ∨ c.ckpt x = true := by
      intro hm
      rcases h.used w m x hm hx with hu | hu
      · exact .inl (hR.mono x w hu)
      · exact .inr hu
    rcases hR.buf w with ⟨h1, _⟩ | ⟨k, h1, h2, _, _, hu, _⟩
    · rw [h1] at hm; exact old hm
    · rw [h1] at hm
      rcases List.mem_append.mp hm with hm | hm
      · exact old hm
      · simp only [List.mem_singleton] at hm
        subst hm
        rw [h2, txn, hr] at hx
        have : r.xid = x := Option.some.inj hx
        rw [← this]; exact hu
  refine ⟨?_, ?_, ?_, ?_, ?_, huse, ?_, ?_, ?_, ?_, ?_, ?_, ?_, ?_, ?_, ?_, ?_, ?_, ?_⟩
  · intro w m hm
    rw [hR.next]
    rcases hmem w m hm with hm | ⟨hi, _⟩
    · have := h.lt w m hm; omega
    · omega
  · intro w
    rcases pend_reads hR w with e | ⟨k, e, _, hi, _⟩
    · rw [e]; exact h.sorted w
    · rw [e]
      refine List.pairwise_append.mpr ⟨h.sorted w, by simp, ?_⟩
      intro a ha b hb
      simp only [List.mem_singleton] at hb
      subst hb
      rw [hi]; exact h.lt w a ha
  · intro w m hm
    rcases hmem w m hm with hm | ⟨_, hf⟩
    · exact h.fits w m hm
    · exact hf
  · intro w
    rw [hR.applied, hR.cur, hR.next, share_succ, ← h.appl w, hdec w, List.append_assoc]
  · intro w x hx
    rw [hR.cur]
    rcases hR.buf w with ⟨h1, h2, _⟩ | ⟨m, h1, _, _, _, _, hca⟩
    · rw [h2] at hx
      have e : pend (read c s s.next r) w = pend s w := by simp [pend, hR.queue, h1]
      rw [e]
      exact ⟨(h.cache w x hx).1, hR.mono x w (h.cache w x hx).2⟩
    · have e : pend (read c s s.next r) w = pend s w ++ [m] := by simp [pend, hR.queue, h1]
      rw [e, after_append]
      rcases hca with ⟨hc, _⟩ | ⟨y, g, _, _, hc, hu, hb⟩
      · rw [hc] at hx; cases hx
      · rw [hc] at hx
        obtain rfl := Option.some.inj hx
        refine ⟨?_, hu⟩
        rcases hb with ⟨hc', hb⟩ | hb
        · simp [after, hb, nxt, (h.cache w y hc').1]
        · simp [after, hb, nxt]
  · intro w x hu
    rcases hR.onlyOwn x w hu with hu | hu
    · exact h.usedN w x hu
    · exact hu.2
  · intro w m hm
    rcases hR.buf w with ⟨h1, _⟩ | ⟨k, _, _, _, hw, _⟩
    · rw [h1] at hm; exact h.bufN w m hm
    · exact hw
  · intro w x i hm
    rw [hR.applied, hR.cur, hdec w, ← List.append_assoc] at hm
    rcases List.mem_append.mp hm with hm | hm
    · exact hR.mono x w (h.appUsed w x i hm)
    · rw [hr] at hm
      split at hm
      · rename_i y g hy
        split at hm
        · rename_i hg
          simp at hm
          obtain ⟨rfl, rfl⟩ := hm
          have hy' := Option.some.inj hy
          rcases hR.buf w with ⟨_, _, h3⟩ | ⟨m, _, _, _, _, _, hca⟩
          · exact absurd hg (h3 x g hy')
          · rcases hca with ⟨_, hb⟩ | ⟨z, g', hz, _, _, hu, _⟩
            · exact absurd hy' ((hb none).2 x g)
            · rw [hy'] at hz
              obtain ⟨rfl, _⟩ := Rec.mod.inj hz
              exact hu
        · simp at hm
      · simp at hm
  · rw [hR.ptr, hR.next]; have := h.bptr; omega
  · intro w; rw [hR.commit, hR.next]; have := h.bcommit w; omega
  · intro w p hp; rw [hR.prev] at hp; rw [hR.ptr]; exact h.bprev w p hp
  · rw [hR.ptr]; exact h.gptr
  · rw [hR.commit]; exact h.gcommit
  · rw [hR.prev]; exact h.gprev
  · have hb := h.bptr
    cases r with
    | mod x g => exact .free [] rfl
    | sp x =>
      cases hh : c.hot with
      | false => exact .free [] (by simp [read, hh])
      | true => exact .free (users c s x) (by simp [read, hh])
    | rb x =>
      cases hh : c.hot with
      | false => exact .back [] s.next x rfl hr (by simp [read, hh]) hb
      | true => exact .back (users c s x) s.next x rfl hr (by simp [read, hh]) hb
    | fin x ok =>
      cases hh : c.hot with
      | false => exact .fin [] s.next x ok rfl hr (by simp [read, hh]) hb
      | true => exact .fin (finUsers c s x) s.next x ok rfl hr (by simp [read, hh]) hb
  · intro e he
    rw [hR.fl] at he
    obtain ⟨k, h1, h2, h3⟩ := h.fl e he
    exact ⟨k, h1, h2, by rw [hR.next]; omega⟩
  · intro e he
    rw [hR.settled] at he
    obtain ⟨k, h2, h3⟩ := h.settled e he
    exact ⟨k, h2, by rw [hR.next]; omega⟩
  · intro w k x ok hk hkn hu
    rw [hR.next] at hkn
    rw [hR.ended]
    by_cases hke : k = s.next
    · subst hke
      rw [hr] at hk
      have hrx := Option.some.inj hk
      right
      have hu' : s.used x w = true := by
        rcases hR.buf w with _ | _
        all_goals
          rcases hR.onlyOwn x w hu with hu' | _
          · exact hu'
          · subst hrx
            simpa [read, sendAll] using hu
      obtain ⟨m, hm, hi⟩ := hR.fin x ok w hrx hu' (h.usedN w x hu')
      exact ⟨m, by simp [pend, hm], hi⟩
    · have hlt : k < s.next := by omega
      have hu' : s.used x w = true := by
        rcases hR.onlyOwn x w hu with hu' | ⟨hx, _⟩
        · exact hu'
        · exact absurd hx.symm (hpr k s.next x ok r hlt hk hr)
      rcases h.ended w k x ok hk hlt hu' with he | ⟨m, hm, hi⟩
      · exact .inl he
      · right
        refine ⟨m, ?_, hi⟩
        rcases pend_reads hR w with e | ⟨j, e, _⟩
        · rw [e]; exact hm
        · rw [e]; simp [hm]

theorem step_inv {c : Cfg} {log : List Rec} {s s' : St} {mv : Move} (hn : 0 < c.n) (hpr : Proper log)
    (h : Inv c log s) (hs : step c log s mv = some s') : Inv c log s' := by
  cases mv with
  | read =>
    simp only [step] at hs
    split at hs
    · rename_i r htd hr
      obtain rfl := Option.some.inj hs
      exact inv_read hn hpr h htd hr
    · cases hs
  | act =>
    simp only [step] at hs
    split at hs
    · cases hs
    · rename_i a rest htd
      exact inv_act h htd hs
  | send w =>
    obtain rfl := Option.some.inj hs
    exact inv_send h w
  | work w =>
    simp only [step] at hs
    split at hs
    · cases hs
    · rename_i m rest hq
      obtain rfl := Option.some.inj hs
      exact inv_work h hq
  | poll w =>
    simp only [step] at hs
    split at hs
    · obtain rfl := Option.some.inj hs
      exact inv_poll h
    · cases hs
  | look w =>
    simp only [step] at hs
    split at hs
    · obtain rfl := Option.some.inj hs
      exact inv_look w h
    · cases hs
  | drain p =>
    simp only [step] at hs
    split at hs
    · obtain rfl := Option.some.inj hs
      exact inv_drain p h
    · cases hs

theorem run_inv {c : Cfg} {log : List Rec} {ms : List Move} {s s' : St} (hn : 0 < c.n)
    (hpr : Proper log) (h : Inv c log s) (hs : run c log s ms = some s') : Inv c log s' := by
  induction ms generalizing s with
  | nil => obtain rfl := Option.some.inj hs; exact h
  | cons m ms ih =>
    simp only [run] at hs
    split at hs
    · cases hs
    · rename_i s1 h1
      exact ih (step_inv hn hpr h h1) hs

end Verif.Workers
