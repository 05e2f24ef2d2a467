import Verif.Rewind.Queue
/-
The invariant of the queue.
-/
namespace Verif.Rewind

variable {α : Type}

/-- Positions reserved but not filled by a backend. -/
def pend : Proc α → Nat → Prop
  | .wait s it, p => s ≤ p ∧ p < s + it.length
  | .fill s it k, p => s + k ≤ p ∧ p < s + it.length
  | _, _ => False

/-- A backend that will move `addPosFilledUpto` on. -/
def resp (af : Nat) : Proc α → Prop
  | .wait s it => s ≤ af ∧ af < s + it.length
  | .fill s it _ => s ≤ af ∧ af < s + it.length
  | .cas s n cur => cur = af ∨ (s ≤ af ∧ af < s + n)
  | .chk _ _ cur => cur = af
  | .idle => False

/-- What holds of one backend. -/
def procOk (q : Q α) (size : Nat) : Proc α → Prop
  | .idle => True
  | .wait s it => 0 < it.length ∧ s + it.length ≤ q.ar ∧ ∀ i, i < it.length → q.log[s + i]? = it[i]?
  | .fill s it k => k < it.length ∧ s + it.length ≤ q.ar ∧ s + it.length + 1 ≤ q.e + size ∧
      (∀ i, i < it.length → q.log[s + i]? = it[i]?) ∧
      ∀ p, s ≤ p → p < s + k → ∀ pr, ¬ pend (q.procs pr) p
  | .cas s n cur => s + n ≤ q.ar ∧ (∀ p, s ≤ p → p < s + n → ∀ pr, ¬ pend (q.procs pr) p) ∧
      (q.af ≤ cur → cur < q.ar ∧ ∀ pr, ¬ pend (q.procs pr) cur)
  | .chk s n cur => s + n ≤ q.ar ∧ (∀ p, s ≤ p → p < s + n → ∀ pr, ¬ pend (q.procs pr) p) ∧
      cur ≤ q.af

/-- End of the positions whose items are on disk. -/
def top (q : Q α) : Nat := q.lock.getD q.e

structure Inv (cf : Cfg) (q : Q α) : Prop where
  cr : q.c ≤ q.r
  re : q.r ≤ q.e
  eaf : q.e ≤ q.af
  afar : q.af ≤ q.ar
  arl : q.ar = q.log.length
  rc : q.r ≤ q.c + cf.size
  et : q.e ≤ top q
  taf : top q ≤ q.af
  al : cf.blk ∣ top q - q.r
  lk : ∀ t, q.lock = some t → q.e < t
  hout : q.out = (q.log.take q.c).map some
  comp1 : ∀ p, q.c ≤ p → p < q.r → q.comp (p % cf.size) = q.log[p]?
  disk1 : ∀ p, q.r ≤ p → p < top q → q.disk p = q.log[p]?
  pr : ∀ i p, pend (q.procs i) p → q.af ≤ p ∧ p < q.ar
  pu : ∀ i j p, pend (q.procs i) p → pend (q.procs j) p → i = j
  ok : ∀ i, procOk q cf.size (q.procs i)
  add1 : ∀ p, q.e ≤ p → p < q.ar → (∀ i, ¬ pend (q.procs i) p) →
    q.add (p % cf.size) = q.log[p]? ∧ p + 1 < q.e + cf.size
  add0 : ∀ p, q.e ≤ p → p < q.e + cf.size → (q.ar ≤ p ∨ ∃ i, pend (q.procs i) p) →
    q.add (p % cf.size) = none
  rs : q.af < q.ar → ∃ i, resp q.af (q.procs i)

theorem mod_ne {a b n : Nat} (h : a < b) (h2 : b < a + n) : a % n ≠ b % n := by
  intro he
  have h3 : n ∣ b - a := Nat.dvd_of_mod_eq_zero (Nat.sub_mod_eq_zero_of_mod_eq he.symm)
  have := Nat.le_of_dvd (by omega) h3
  omega

theorem mod_ne' {a b n : Nat} (h : a ≠ b) (h1 : a < b + n) (h2 : b < a + n) : a % n ≠ b % n := by
  rcases Nat.lt_or_gt_of_ne h with h | h
  · exact mod_ne h h2
  · exact fun he => mod_ne h h1 he.symm

theorem upd_same {β : Type} (f : Nat → β) (i v) : upd f i v i = v := by simp [upd]
theorem upd_ne {β : Type} (f : Nat → β) {i j} (v : β) (h : j ≠ i) : upd f i v j = f j := by
  simp [upd, h]

theorem inv_init (cf : Cfg) : Inv cf (Q.init : Q α) := by
  constructor <;> simp [Q.init, top, pend, procOk]

/-- The filled items end inside the ring. -/
theorem af_room {cf : Cfg} {q : Q α} (h : Inv cf q) (hs : 0 < cf.size) : q.af < q.e + cf.size := by
  by_cases he : q.af = q.e
  · omega
  · have h1 := h.eaf
    have h2 := h.afar
    have := (h.add1 (q.af - 1) (by omega) (by omega) (by
      intro i hp
      have := h.pr i _ hp
      omega)).2
    omega

theorem inv_reserve {cf : Cfg} {q q' : Q α} (h : Inv cf q) (hs : 0 < cf.size) {p items}
    (e : doReserve q p items = some q') : Inv cf q' := by
  unfold doReserve at e
  split at e
  · rename_i hp
    split at e
    · cases e
    · rename_i hne
      injection e with e
      subst e
      have hlen : 0 < items.length := List.length_pos_iff.2 hne
      have hpend : ∀ i x, pend (upd q.procs p (Proc.wait q.ar items) i) x →
          (i = p ∧ q.ar ≤ x ∧ x < q.ar + items.length) ∨ (i ≠ p ∧ pend (q.procs i) x) := by
        intro i x hx
        by_cases hi : i = p
        · subst hi; rw [upd_same] at hx; exact Or.inl ⟨rfl, hx⟩
        · rw [upd_ne _ _ hi] at hx; exact Or.inr ⟨hi, hx⟩
      have hold : ∀ i x, pend (q.procs i) x → pend (upd q.procs p (Proc.wait q.ar items) i) x := by
        intro i x hx
        by_cases hi : i = p
        · subst hi; rw [hp] at hx; exact hx.elim
        · rwa [upd_ne _ _ hi]
      have hnp : ∀ x, x < q.ar → (∀ j, ¬ pend (q.procs j) x) →
          ∀ j, ¬ pend (upd q.procs p (Proc.wait q.ar items) j) x := by
        intro x hx hn j hj
        rcases hpend j x hj with ⟨_, h1, _⟩ | ⟨_, h1⟩
        · omega
        · exact hn j h1
      have hlog : ∀ x, x < q.ar → (q.log ++ items)[x]? = q.log[x]? := by
        intro x hx
        rw [List.getElem?_append_left]
        have := h.arl; omega
      refine { cr := h.cr, re := h.re, eaf := h.eaf, afar := ?_, arl := ?_, rc := h.rc
               et := h.et, taf := h.taf, al := h.al, lk := h.lk, hout := ?_, comp1 := ?_
               disk1 := ?_, pr := ?_, pu := ?_, ok := ?_, add1 := ?_, add0 := ?_, rs := ?_ }
      · have := h.afar; simp only; omega
      · simp [h.arl]
      · simp only [h.hout]
        rw [List.take_append_of_le_length]
        have := h.cr; have := h.re; have := h.eaf; have := h.afar; have := h.arl; omega
      · intro x h1 h2
        simp only at *
        have := h.re; have := h.eaf; have := h.afar
        rw [hlog x (by omega)]; exact h.comp1 x h1 h2
      · intro x h1 h2
        have := h.taf; have := h.afar
        have h2' : x < top q := h2
        show q.disk x = (q.log ++ items)[x]?
        rw [hlog x (by omega)]; exact h.disk1 x h1 h2
      · intro i x hx
        have := h.afar
        rcases hpend i x hx with ⟨_, h1, h2⟩ | ⟨_, h1⟩
        · simp only; omega
        · have := h.pr i x h1; simp only; omega
      · intro i j x hi hj
        rcases hpend i x hi with ⟨a, h1, h2⟩ | ⟨a, h1⟩ <;> rcases hpend j x hj with ⟨b, h3, h4⟩ | ⟨b, h3⟩
        · rw [a, b]
        · have := h.pr j x h3; omega
        · have := h.pr i x h1; omega
        · exact h.pu i j x h1 h3
      · intro i
        by_cases hi : i = p
        · subst hi
          simp only [upd_same, procOk]
          refine ⟨hlen, by omega, ?_⟩
          intro k hk
          rw [List.getElem?_append_right (by have := h.arl; omega)]
          congr 1; have := h.arl; omega
        · have ho := h.ok i
          simp only [upd_ne _ _ hi]
          revert ho
          cases q.procs i with
          | idle => simp [procOk]
          | wait s it =>
            simp only [procOk]
            rintro ⟨a, b, c⟩
            exact ⟨a, by omega, fun k hk => by rw [hlog _ (by omega)]; exact c k hk⟩
          | fill s it k =>
            simp only [procOk]
            rintro ⟨a, b, b', c, d⟩
            exact ⟨a, by omega, b', fun k hk => by rw [hlog _ (by omega)]; exact c k hk,
              fun x h1 h2 => hnp x (by omega) (d x h1 h2)⟩
          | cas s n cur =>
            simp only [procOk]
            rintro ⟨a, b, c⟩
            exact ⟨by omega, fun x h1 h2 => hnp x (by omega) (b x h1 h2),
              fun hc => ⟨by have := (c hc).1; omega, hnp _ (c hc).1 (c hc).2⟩⟩
          | chk s n cur =>
            simp only [procOk]
            rintro ⟨a, b, c⟩
            exact ⟨by omega, fun x h1 h2 => hnp x (by omega) (b x h1 h2), c⟩
      · intro x h1 h2 hn
        simp only at *
        have hx : x < q.ar := by
          have := hn p
          rw [upd_same] at this
          simp only [pend] at this
          omega
        rw [hlog x hx]
        exact h.add1 x h1 hx (fun i hi => hn i (hold i x hi))
      · intro x h1 h2 hc
        simp only at *
        refine h.add0 x h1 h2 ?_
        rcases hc with hc | ⟨i, hi⟩
        · exact Or.inl (by omega)
        · rcases hpend i x hi with ⟨_, h3, _⟩ | ⟨_, h3⟩
          · exact Or.inl h3
          · exact Or.inr ⟨i, h3⟩
      · intro _
        simp only
        by_cases hlt : q.af < q.ar
        · obtain ⟨i, hi⟩ := h.rs hlt
          refine ⟨i, ?_⟩
          by_cases hip : i = p
          · subst hip; rw [hp] at hi; exact hi.elim
          · rwa [upd_ne _ _ hip]
        · refine ⟨p, ?_⟩
          rw [upd_same]
          have := h.afar
          simp only [resp]; omega
  · cases e

theorem inv_admit {cf : Cfg} {q q' : Q α} (h : Inv cf q) {p} (e : doAdmit cf q p = some q') :
    Inv cf q' := by
  unfold doAdmit at e
  split at e
  · rename_i s it hp
    split at e
    · rename_i hr
      injection e with e
      subst e
      have hpe : ∀ i x, pend (upd q.procs p (Proc.fill s it 0) i) x ↔ pend (q.procs i) x := by
        intro i x
        by_cases hi : i = p
        · subst hi; rw [upd_same, hp]; simp [pend]
        · rw [upd_ne _ _ hi]
      have hop := h.ok p
      rw [hp] at hop
      refine { cr := h.cr, re := h.re, eaf := h.eaf, afar := h.afar, arl := h.arl, rc := h.rc
               et := h.et, taf := h.taf, al := h.al, lk := h.lk, hout := h.hout, comp1 := h.comp1
               disk1 := h.disk1, pr := ?_, pu := ?_, ok := ?_, add1 := ?_, add0 := ?_, rs := ?_ }
      · intro i x hx; exact h.pr i x ((hpe i x).1 hx)
      · intro i j x hi hj; exact h.pu i j x ((hpe i x).1 hi) ((hpe j x).1 hj)
      · intro i
        by_cases hi : i = p
        · subst hi
          simp only [upd_same]
          exact ⟨hop.1, hop.2.1, hr, hop.2.2, fun x h1 h2 => absurd h1 (by omega)⟩
        · have ho := h.ok i
          simp only [upd_ne _ _ hi]
          revert ho
          cases q.procs i <;> simp only [procOk, hpe] <;> exact id
      · intro x h1 h2 hn
        exact h.add1 x h1 h2 (fun i hi => hn i ((hpe i x).2 hi))
      · intro x h1 h2 hc
        refine h.add0 x h1 h2 ?_
        rcases hc with hc | ⟨i, hi⟩
        · exact Or.inl hc
        · exact Or.inr ⟨i, (hpe i x).1 hi⟩
      · intro hl
        obtain ⟨i, hi⟩ := h.rs hl
        refine ⟨i, ?_⟩
        by_cases hip : i = p
        · subst hip; simp only [upd_same]; rw [hp] at hi; exact hi
        · simp only [upd_ne _ _ hip]; exact hi
    · cases e
  · cases e

theorem inv_put {cf : Cfg} {q q' : Q α} (h : Inv cf q) {p} (e : doPut cf q p = some q') :
    Inv cf q' := by
  unfold doPut at e
  split at e
  · rename_i s it k hp
    split at e
    · cases e
    · rename_i x hx
      injection e with e
      have hop := h.ok p
      rw [hp] at hop
      obtain ⟨o1, o2, o3, o4, o5⟩ := hop
      have hlogx : q.log[s + k]? = some x := by rw [o4 k o1, hx]
      have hpk : pend (q.procs p) (s + k) := by rw [hp]; simp only [pend]; omega
      have hrk := h.pr p _ hpk
      -- the new process state
      have hnew : ∃ P : Proc α, P = (if k + 1 = it.length then .cas s it.length s else .fill s it (k + 1)) ∧
          (∀ y, pend P y ↔ (s + k + 1 ≤ y ∧ y < s + it.length)) := by
        refine ⟨_, rfl, ?_⟩
        intro y
        split
        · rename_i hk
          simp only [pend, false_iff]; omega
        · simp only [pend]; omega
      obtain ⟨P, hP, hPp⟩ := hnew
      rw [← hP] at e
      subst e
      have hpe : ∀ i y, pend (upd q.procs p P i) y ↔ (pend (q.procs i) y ∧ y ≠ s + k) := by
        intro i y
        by_cases hi : i = p
        · subst hi; rw [upd_same, hPp, hp]; simp only [pend]; omega
        · rw [upd_ne _ _ hi]
          constructor
          · intro hy
            refine ⟨hy, ?_⟩
            intro he
            rw [he] at hy
            exact hi (h.pu i p _ hy hpk)
          · exact fun hy => hy.1
      refine { cr := h.cr, re := h.re, eaf := h.eaf, afar := h.afar, arl := h.arl, rc := h.rc
               et := h.et, taf := h.taf, al := h.al, lk := h.lk, hout := h.hout, comp1 := h.comp1
               disk1 := h.disk1, pr := ?_, pu := ?_, ok := ?_, add1 := ?_, add0 := ?_, rs := ?_ }
      · intro i y hy; exact h.pr i y ((hpe i y).1 hy).1
      · intro i j y hi hj; exact h.pu i j y ((hpe i y).1 hi).1 ((hpe j y).1 hj).1
      · intro i
        by_cases hi : i = p
        · subst hi
          simp only [upd_same]
          have hreg : ∀ y, s ≤ y → y < s + k + 1 → ∀ pr, ¬ pend (upd q.procs i P pr) y := by
            intro y h1 h2 j hj
            have hj' := (hpe j y).1 hj
            exact o5 y h1 (by have := hj'.2; omega) j hj'.1
          by_cases hk : k + 1 = it.length
          · conv => arg 3; rw [hP, if_pos hk]
            exact ⟨o2, fun y h1 h2 => hreg y h1 (by omega),
              fun _ => ⟨by simp only; omega, hreg s (Nat.le_refl _) (by omega)⟩⟩
          · conv => arg 3; rw [hP, if_neg hk]
            exact ⟨by omega, o2, o3, o4, fun y h1 h2 => hreg y h1 (by omega)⟩
        · have ho := h.ok i
          simp only [upd_ne _ _ hi]
          revert ho
          cases q.procs i with
          | idle => simp [procOk]
          | wait s it => exact id
          | fill s it k =>
            simp only [procOk]
            rintro ⟨a, b, b', c, d⟩
            exact ⟨a, b, b', c, fun y h1 h2 j hj => d y h1 h2 j ((hpe j y).1 hj).1⟩
          | cas s n cur =>
            simp only [procOk]
            rintro ⟨a, b, c⟩
            exact ⟨a, fun y h1 h2 j hj => b y h1 h2 j ((hpe j y).1 hj).1,
              fun hc => ⟨(c hc).1, fun j hj => (c hc).2 j ((hpe j _).1 hj).1⟩⟩
          | chk s n cur =>
            simp only [procOk]
            rintro ⟨a, b, c⟩
            exact ⟨a, fun y h1 h2 j hj => b y h1 h2 j ((hpe j y).1 hj).1, c⟩
      · intro y h1 h2 hn
        simp only at *
        by_cases hy : y = s + k
        · subst hy
          rw [upd_same, hlogx]
          exact ⟨rfl, by omega⟩
        · have hn' : ∀ i, ¬ pend (q.procs i) y := fun i hi => hn i ((hpe i y).2 ⟨hi, hy⟩)
          have := h.add1 y h1 h2 hn'
          rw [upd_ne _ _ (mod_ne' hy (by have := h.eaf; omega) (by have := h.eaf; omega))]
          exact this
      · intro y h1 h2 hc
        simp only at *
        have hy : y ≠ s + k := by
          rintro rfl
          rcases hc with hc | ⟨i, hi⟩
          · omega
          · exact ((hpe i _).1 hi).2 rfl
        rw [upd_ne _ _ (mod_ne' hy (by have := h.eaf; omega) (by have := h.eaf; omega))]
        refine h.add0 y h1 h2 ?_
        rcases hc with hc | ⟨i, hi⟩
        · exact Or.inl hc
        · exact Or.inr ⟨i, ((hpe i y).1 hi).1⟩
      · intro hl
        obtain ⟨i, hi⟩ := h.rs hl
        refine ⟨i, ?_⟩
        by_cases hip : i = p
        · subst hip
          simp only [upd_same]
          rw [hp] at hi
          rw [hP]
          split
          · exact Or.inr hi
          · exact hi
        · simp only [upd_ne _ _ hip]; exact hi
  · cases e

theorem inv_cas {cf : Cfg} {q q' : Q α} (h : Inv cf q) {p} (e : doCas q p = some q') :
    Inv cf q' := by
  unfold doCas at e
  split at e
  · rename_i s n cur hp
    have hop := h.ok p
    rw [hp] at hop
    obtain ⟨o1, o2, o3⟩ := hop
    -- any new state of `p` without pending positions
    have hpe : ∀ P : Proc α, (∀ y, ¬ pend P y) → ∀ i y, pend (upd q.procs p P i) y ↔ pend (q.procs i) y := by
      intro P hP i y
      by_cases hi : i = p
      · subst hi; rw [upd_same, hp]; exact iff_of_false (hP y) id
      · rw [upd_ne _ _ hi]
    split at e
    · rename_i hc
      injection e with e
      subst e
      have hpe' := hpe (.chk s n (cur + 1)) (by simp [pend])
      have hcur := o3 (by omega)
      refine { cr := h.cr, re := h.re, eaf := ?_, afar := ?_, arl := h.arl, rc := h.rc
               et := h.et, taf := ?_, al := h.al, lk := h.lk, hout := h.hout, comp1 := h.comp1
               disk1 := h.disk1, pr := ?_, pu := ?_, ok := ?_, add1 := ?_, add0 := ?_, rs := ?_ }
      · have := h.eaf; simp only; omega
      · have := hcur.1; simp only; omega
      · have := h.taf
        show top q ≤ cur + 1
        omega
      · intro i x hx
        have hx' := (hpe' i x).1 hx
        have := h.pr i x hx'
        have hne : x ≠ cur := by rintro rfl; exact hcur.2 i hx'
        simp only; omega
      · intro i j x hi hj; exact h.pu i j x ((hpe' i x).1 hi) ((hpe' j x).1 hj)
      · intro i
        by_cases hi : i = p
        · subst hi
          simp only [upd_same]
          exact ⟨o1, fun x h1 h2 j hj => o2 x h1 h2 j ((hpe' j x).1 hj), Nat.le_refl _⟩
        · have ho := h.ok i
          simp only [upd_ne _ _ hi]
          revert ho
          cases q.procs i with
          | idle => simp [procOk]
          | wait s it => exact id
          | fill s it k => simp only [procOk, hpe']; exact id
          | cas s n cur' =>
            simp only [procOk, hpe']
            rintro ⟨a, b, c⟩
            exact ⟨a, b, fun hc' => c (by omega)⟩
          | chk s n cur' =>
            simp only [procOk, hpe']
            rintro ⟨a, b, c⟩
            exact ⟨a, b, by omega⟩
      · intro x h1 h2 hn
        exact h.add1 x h1 h2 (fun i hi => hn i ((hpe' i x).2 hi))
      · intro x h1 h2 hcc
        refine h.add0 x h1 h2 ?_
        rcases hcc with hcc | ⟨i, hi⟩
        · exact Or.inl hcc
        · exact Or.inr ⟨i, (hpe' i x).1 hi⟩
      · intro _
        exact ⟨p, by simp only [upd_same]; rfl⟩
    · rename_i hc
      -- only the state of `p` changes
      have key : ∀ P : Proc α, (∀ y, ¬ pend P y) →
          (procOk { q with procs := upd q.procs p P } cf.size P) →
          (resp q.af (q.procs p) → resp q.af P) → Inv cf { q with procs := upd q.procs p P } := by
        intro P hP hok hr
        have hpe' := hpe P hP
        refine { cr := h.cr, re := h.re, eaf := h.eaf, afar := h.afar, arl := h.arl, rc := h.rc
                 et := h.et, taf := h.taf, al := h.al, lk := h.lk, hout := h.hout, comp1 := h.comp1
                 disk1 := h.disk1, pr := ?_, pu := ?_, ok := ?_, add1 := ?_, add0 := ?_, rs := ?_ }
        · intro i x hx; exact h.pr i x ((hpe' i x).1 hx)
        · intro i j x hi hj; exact h.pu i j x ((hpe' i x).1 hi) ((hpe' j x).1 hj)
        · intro i
          by_cases hi : i = p
          · subst hi
            simp only [upd_same]
            exact hok
          · have ho := h.ok i
            simp only [upd_ne _ _ hi]
            revert ho
            cases q.procs i <;> simp only [procOk, hpe'] <;> exact id
        · intro x h1 h2 hn
          exact h.add1 x h1 h2 (fun i hi => hn i ((hpe' i x).2 hi))
        · intro x h1 h2 hcc
          refine h.add0 x h1 h2 ?_
          rcases hcc with hcc | ⟨i, hi⟩
          · exact Or.inl hcc
          · exact Or.inr ⟨i, (hpe' i x).1 hi⟩
        · intro hl
          obtain ⟨i, hi⟩ := h.rs hl
          refine ⟨i, ?_⟩
          by_cases hip : i = p
          · subst hip; simp only [upd_same]; exact hr hi
          · simp only [upd_ne _ _ hip]; exact hi
      split at e
      · rename_i hr
        injection e with e
        subst e
        have hpe' := hpe (.cas s n q.af) (by simp [pend])
        refine key _ (by simp [pend]) ?_ ?_
        · refine ⟨o1, fun x h1 h2 j hj => o2 x h1 h2 j ((hpe' j x).1 hj), fun _ => ⟨?_, ?_⟩⟩
          · simp only; omega
          · intro j hj
            exact o2 q.af hr.1 hr.2 j ((hpe' j _).1 hj)
        · intro _; exact Or.inl rfl
      · rename_i hr
        injection e with e
        subst e
        refine key _ (by simp [pend]) trivial ?_
        rw [hp]
        rintro (h1 | h1)
        · exact (hc h1.symm).elim
        · exact (hr h1).elim
  · cases e

theorem inv_look {cf : Cfg} {q q' : Q α} (h : Inv cf q) (hs : 0 < cf.size) {p}
    (e : doLook cf q p = some q') : Inv cf q' := by
  unfold doLook at e
  split at e
  · rename_i s n cur hp
    have hop := h.ok p
    rw [hp] at hop
    obtain ⟨o1, o2, o3⟩ := hop
    have hpe : ∀ P : Proc α, (∀ y, ¬ pend P y) → ∀ i y, pend (upd q.procs p P i) y ↔ pend (q.procs i) y := by
      intro P hP i y
      by_cases hi : i = p
      · subst hi; rw [upd_same, hp]; exact iff_of_false (hP y) id
      · rw [upd_ne _ _ hi]
    have key : ∀ P : Proc α, (∀ y, ¬ pend P y) →
        (procOk { q with procs := upd q.procs p P } cf.size P) →
        (q.af < q.ar → ∃ i, resp q.af (upd q.procs p P i)) → Inv cf { q with procs := upd q.procs p P } := by
      intro P hP hok hr
      have hpe' := hpe P hP
      refine { cr := h.cr, re := h.re, eaf := h.eaf, afar := h.afar, arl := h.arl, rc := h.rc
               et := h.et, taf := h.taf, al := h.al, lk := h.lk, hout := h.hout, comp1 := h.comp1
               disk1 := h.disk1, pr := ?_, pu := ?_, ok := ?_, add1 := ?_, add0 := ?_, rs := hr }
      · intro i x hx; exact h.pr i x ((hpe' i x).1 hx)
      · intro i j x hi hj; exact h.pu i j x ((hpe' i x).1 hi) ((hpe' j x).1 hj)
      · intro i
        by_cases hi : i = p
        · subst hi
          simp only [upd_same]
          exact hok
        · have ho := h.ok i
          simp only [upd_ne _ _ hi]
          revert ho
          cases q.procs i <;> simp only [procOk, hpe'] <;> exact id
      · intro x h1 h2 hn
        exact h.add1 x h1 h2 (fun i hi => hn i ((hpe' i x).2 hi))
      · intro x h1 h2 hcc
        refine h.add0 x h1 h2 ?_
        rcases hcc with hcc | ⟨i, hi⟩
        · exact Or.inl hcc
        · exact Or.inr ⟨i, (hpe' i x).1 hi⟩
    have hroom := af_room h hs
    split at e
    · rename_i hn
      injection e with e
      subst e
      refine key _ (by simp [pend]) trivial ?_
      intro hl
      obtain ⟨i, hi⟩ := h.rs hl
      by_cases hip : i = p
      · subst hip
        rw [hp] at hi
        have hcur : cur = q.af := hi
        -- the slot of `af` is empty, so somebody is still to fill it
        have : ∃ j, pend (q.procs j) q.af := by
          apply Classical.byContradiction
          intro hno
          have hno' : ∀ j, ¬ pend (q.procs j) q.af := fun j hj => hno ⟨j, hj⟩
          have h1 := (h.add1 q.af h.eaf hl hno').1
          rw [hcur] at hn
          rw [h1] at hn
          have h2 : q.af < q.log.length := by rw [← h.arl]; exact hl
          rw [List.getElem?_eq_getElem h2] at hn
          simp at hn
        obtain ⟨j, hj⟩ := this
        refine ⟨j, ?_⟩
        have hji : j ≠ i := by rintro rfl; rw [hp] at hj; exact hj
        rw [upd_ne _ _ hji]
        revert hj
        cases q.procs j with
        | wait s it => exact id
        | fill s it k => simp only [pend, resp]; omega
        | _ => exact False.elim
      · exact ⟨i, by rwa [upd_ne _ _ hip]⟩
    · rename_i hn
      injection e with e
      subst e
      have hpe' := hpe (.cas s n cur) (by simp [pend])
      refine key _ (by simp [pend]) ?_ ?_
      · refine ⟨o1, fun x h1 h2 j hj => o2 x h1 h2 j ((hpe' j x).1 hj), fun hle => ?_⟩
        have hle' : q.af ≤ cur := hle
        have hcur : cur = q.af := by omega
        subst hcur
        have hx : ¬ (q.ar ≤ q.af ∨ ∃ i, pend (q.procs i) q.af) := by
          intro hc
          rw [h.add0 q.af h.eaf hroom hc] at hn
          simp at hn
        exact ⟨by simp only; omega, fun j hj => hx (Or.inr ⟨j, (hpe' j _).1 hj⟩)⟩
      · intro hl
        obtain ⟨i, hi⟩ := h.rs hl
        refine ⟨i, ?_⟩
        by_cases hip : i = p
        · subst hip; rw [upd_same]; rw [hp] at hi; exact Or.inl hi
        · rwa [upd_ne _ _ hip]
  · cases e

theorem inv_move {cf : Cfg} {q q' : Q α} (h : Inv cf q) (hs : 0 < cf.size)
    (e : doMove cf q = some q') : Inv cf q' := by
  unfold doMove at e
  split at e
  · rename_i hc
    obtain ⟨c1, c2, c3⟩ := hc
    simp only [fast, Bool.and_eq_true, decide_eq_true_eq] at c2
    obtain ⟨c4, c5⟩ := c2
    injection e with e
    subst e
    have ht : top q = q.e := by simp [top, c1]
    have h1 := h.cr; have h2 := h.re; have h3 := h.eaf; have h4 := h.afar
    have hroom := af_room h hs
    have hnp : ∀ i, ¬ pend (q.procs i) q.e := by
      intro i hi; have := h.pr i _ hi; omega
    have hadd := h.add1 q.e (Nat.le_refl _) (by omega) hnp
    refine { cr := ?_, re := ?_, eaf := ?_, afar := h.afar, arl := h.arl, rc := ?_
             et := ?_, taf := ?_, al := ?_, lk := ?_, hout := h.hout, comp1 := ?_
             disk1 := ?_, pr := h.pr, pu := h.pu, ok := ?_, add1 := ?_, add0 := ?_, rs := h.rs }
    · simp only; omega
    · simp only; omega
    · simp only; omega
    · simp only; omega
    · simp [top, c1]
    · simp only [top, c1, Option.getD_none]; omega
    · have : q.e + 1 - (q.r + 1) = 0 := by omega
      simp only [top, c1, Option.getD_none, this]
      exact Nat.dvd_zero _
    · intro t ht; simp only at ht; rw [c1] at ht; cases ht
    · intro x hx1 hx2
      simp only at *
      by_cases hx : x = q.r
      · subst hx
        rw [upd_same, c4]
        exact hadd.1
      · rw [upd_ne _ _ (mod_ne' hx (by omega) (by omega))]
        exact h.comp1 x hx1 (by omega)
    · intro x hx1 hx2
      simp only [top, c1, Option.getD_none] at *
      omega
    · intro i
      have ho := h.ok i
      revert ho
      simp only
      cases q.procs i with
      | fill s it k =>
        simp only [procOk]
        rintro ⟨a, b, c, d⟩
        exact ⟨a, b, by omega, d⟩
      | _ => exact id
    · intro x hx1 hx2 hn
      simp only at *
      have := h.add1 x (by omega) hx2 hn
      rw [upd_ne _ _ (mod_ne' (by omega) (by omega) (by omega))]
      exact ⟨this.1, by omega⟩
    · intro x hx1 hx2 hn
      simp only at *
      by_cases hx : x = q.e + cf.size
      · subst hx
        rw [Nat.add_mod_right, upd_same]
      · rw [upd_ne _ _ (mod_ne' (by omega) (by omega) (by omega))]
        exact h.add0 x (by omega) (by omega) hn
  · cases e

theorem inv_evict {cf : Cfg} {q q' : Q α} (h : Inv cf q) (hb : 0 < cf.blk)
    (e : doEvict cf q = some q') : Inv cf q' := by
  unfold doEvict at e
  split at e
  · rename_i hc
    obtain ⟨c1, c2, c3⟩ := hc
    injection e with e
    subst e
    have ht : top q = q.e := by simp [top, c1]
    have h1 := h.cr; have h2 := h.re; have h3 := h.eaf; have h4 := h.afar
    refine { cr := h.cr, re := h.re, eaf := h.eaf, afar := h.afar, arl := h.arl, rc := h.rc
             et := ?_, taf := ?_, al := ?_, lk := ?_, hout := h.hout, comp1 := h.comp1
             disk1 := ?_, pr := h.pr, pu := h.pu, ok := h.ok, add1 := h.add1, add0 := h.add0, rs := h.rs }
    · simp [top]
    · simp only [top, Option.getD_some]; omega
    · have := h.al
      rw [ht] at this
      have he : q.e + cf.blk - q.r = (q.e - q.r) + cf.blk := by omega
      simp only [top, Option.getD_some, he]
      exact Nat.dvd_add this (Nat.dvd_refl _)
    · intro t ht; simp only at ht; injection ht with ht; simp only; omega
    · intro x hx1 hx2
      simp only [top, Option.getD_some] at hx2
      show (if q.e ≤ x ∧ x < q.e + cf.blk then q.add (x % cf.size) else q.disk x) = q.log[x]?
      by_cases hx : q.e ≤ x
      · rw [if_pos ⟨hx, hx2⟩]
        exact (h.add1 x hx (by omega) (by intro i hi; have := h.pr i _ hi; omega)).1
      · rw [if_neg (by omega)]
        exact h.disk1 x hx1 (by rw [ht]; omega)
  · cases e

theorem inv_clear {cf : Cfg} {q q' : Q α} (h : Inv cf q) (hs : 0 < cf.size)
    (e : doClear cf q = some q') : Inv cf q' := by
  unfold doClear at e
  split at e
  · cases e
  · rename_i t hl
    injection e with e
    subst e
    have ht : top q = t := by simp [top, hl]
    have hlt := h.lk t hl
    have h1 := h.cr; have h2 := h.re; have h3 := h.eaf; have h4 := h.afar
    have h5 := h.taf
    rw [ht] at h5
    have hroom := af_room h hs
    have htop : top { q with add := upd q.add (q.e % cf.size) none, e := q.e + 1
                             lock := if q.e + 1 = t then none else some t } = t := by
      simp only [top]
      split
      · rename_i h; simpa using h
      · simp
    refine { cr := h.cr, re := ?_, eaf := ?_, afar := h.afar, arl := h.arl, rc := h.rc
             et := ?_, taf := ?_, al := ?_, lk := ?_, hout := h.hout, comp1 := h.comp1
             disk1 := ?_, pr := h.pr, pu := h.pu, ok := ?_, add1 := ?_, add0 := ?_, rs := h.rs }
    · simp only; omega
    · simp only; omega
    · rw [htop]; simp only; omega
    · rw [htop]; exact h5
    · rw [htop]; have := h.al; rw [ht] at this; exact this
    · intro t' ht'
      simp only at ht' ⊢
      split at ht'
      · cases ht'
      · injection ht' with ht'; omega
    · rw [htop]; intro x hx1 hx2; exact h.disk1 x hx1 (by rw [ht]; exact hx2)
    · intro i
      have ho := h.ok i
      revert ho
      simp only
      cases q.procs i with
      | fill s it k =>
        simp only [procOk]
        rintro ⟨a, b, c, d⟩
        exact ⟨a, b, by omega, d⟩
      | _ => exact id
    · intro x hx1 hx2 hn
      simp only at *
      have := h.add1 x (by omega) hx2 hn
      rw [upd_ne _ _ (mod_ne' (by omega) (by omega) (by omega))]
      exact ⟨this.1, by omega⟩
    · intro x hx1 hx2 hn
      simp only at *
      by_cases hx : x = q.e + cf.size
      · subst hx
        rw [Nat.add_mod_right, upd_same]
      · rw [upd_ne _ _ (mod_ne' (by omega) (by omega) (by omega))]
        exact h.add0 x (by omega) (by omega) hn

theorem slot_off {n r d : Nat} (hd : d < n) : ((r + d) % n + n - r % n) % n = d := by
  have hn : 0 < n := by omega
  have hr := Nat.mod_lt r hn
  have e1 : (r + d) % n = (r % n + d) % n := by rw [Nat.add_mod, Nat.mod_eq_of_lt hd]
  rw [e1]
  by_cases hlt : r % n + d < n
  · rw [Nat.mod_eq_of_lt hlt]
    have : r % n + d + n - r % n = d + n := by omega
    rw [this, Nat.add_mod_right, Nat.mod_eq_of_lt hd]
  · have e2 : (r % n + d) % n = r % n + d - n := by
      rw [Nat.mod_eq_sub_mod (by omega), Nat.mod_eq_of_lt (by omega)]
    rw [e2]
    have : r % n + d - n + n - r % n = d := by omega
    rw [this, Nat.mod_eq_of_lt hd]

theorem inv_restore {cf : Cfg} {q q' : Q α} (h : Inv cf q) (hs : 0 < cf.size)
    (hbs : cf.blk ≤ cf.size) (e : doRestore cf q = some q') : Inv cf q' := by
  unfold doRestore at e
  split at e
  · rename_i hc
    obtain ⟨c1, c2, c3⟩ := hc
    injection e with e
    subst e
    have ht : top q = q.e := by simp [top, c1]
    have h1 := h.cr; have h2 := h.re; have h3 := h.eaf; have h4 := h.afar
    have hal := h.al
    rw [ht] at hal
    have hle := Nat.le_of_dvd (by omega) hal
    refine { cr := ?_, re := ?_, eaf := h.eaf, afar := h.afar, arl := h.arl, rc := ?_
             et := h.et, taf := h.taf, al := ?_, lk := h.lk, hout := h.hout, comp1 := ?_
             disk1 := ?_, pr := h.pr, pu := h.pu, ok := h.ok, add1 := h.add1, add0 := h.add0, rs := h.rs }
    · simp only; omega
    · simp only; omega
    · simp only; omega
    · show cf.blk ∣ top q - (q.r + cf.blk)
      rw [ht]
      have he : q.e - (q.r + cf.blk) = (q.e - q.r) - cf.blk := by omega
      rw [he]
      exact Nat.dvd_sub hal (Nat.dvd_refl _)
    · intro x hx1 hx2
      simp only at *
      by_cases hx : q.r ≤ x
      · obtain ⟨d, rfl⟩ := Nat.exists_eq_add_of_le hx
        have hd : d < cf.size := by omega
        rw [slot_off hd, if_pos ⟨by omega, Nat.mod_lt _ hs⟩]
        exact h.disk1 _ hx (by rw [ht]; omega)
      · have hneg : ¬ ((x % cf.size + cf.size - q.r % cf.size) % cf.size < cf.blk ∧ x % cf.size < cf.size) := by
          rintro ⟨hlt, _⟩
          -- `x` would be in the same slot as one of the positions read
          have hd : x + cf.size - q.r < cf.size := by omega
          have := slot_off (r := q.r) hd
          have he : q.r + (x + cf.size - q.r) = x + cf.size := by omega
          rw [he, Nat.add_mod_right] at this
          omega
        rw [if_neg hneg]
        exact h.comp1 x hx1 (by omega)
    · intro x hx1 hx2
      exact h.disk1 x (by simp only at hx1; omega) hx2
  · cases e

theorem inv_complete {cf : Cfg} {q q' : Q α} (h : Inv cf q)
    (e : doComplete cf q = some q') : Inv cf q' := by
  unfold doComplete at e
  split at e
  · rename_i hc
    obtain ⟨c1, c2⟩ := hc
    injection e with e
    subst e
    have h1 := h.cr; have h2 := h.re; have h3 := h.eaf; have h4 := h.afar; have h5 := h.rc
    have hlen : q.c < q.log.length := by rw [← h.arl]; omega
    refine { cr := ?_, re := h.re, eaf := h.eaf, afar := h.afar, arl := h.arl, rc := ?_
             et := h.et, taf := h.taf, al := h.al, lk := h.lk, hout := ?_, comp1 := ?_
             disk1 := h.disk1, pr := h.pr, pu := h.pu, ok := h.ok, add1 := h.add1, add0 := h.add0, rs := h.rs }
    · simp only; omega
    · simp only; omega
    · simp only [h.hout]
      rw [h.comp1 q.c (Nat.le_refl _) c2, List.getElem?_eq_getElem hlen, List.take_add_one,
        List.getElem?_eq_getElem hlen]
      simp only [List.map_append, Option.toList, List.map_cons, List.map_nil]
    · intro x hx1 hx2
      simp only at *
      rw [upd_ne _ _ (mod_ne' (by omega) (by omega) (by omega))]
      exact h.comp1 x (by omega) hx2
  · cases e

theorem inv_punch {cf : Cfg} {q q' : Q α} (h : Inv cf q)
    (e : doPunch q = some q') : Inv cf q' := by
  unfold doPunch at e
  injection e with e
  subst e
  refine { cr := h.cr, re := h.re, eaf := h.eaf, afar := h.afar, arl := h.arl, rc := h.rc
           et := h.et, taf := h.taf, al := h.al, lk := h.lk, hout := h.hout, comp1 := h.comp1
           disk1 := ?_, pr := h.pr, pu := h.pu, ok := h.ok, add1 := h.add1, add0 := h.add0, rs := h.rs }
  intro x hx1 hx2
  simp only at *
  rw [if_neg ?_]
  · exact h.disk1 x hx1 hx2
  · have := Nat.div_mul_le_self (q.r * itemBytes) blockBytes
    have := Nat.mul_le_mul_right itemBytes hx1
    omega

theorem Cfg.Ok.size_pos {cf : Cfg} (h : cf.Ok) : 0 < cf.size := by
  obtain ⟨hb, m, hm, he⟩ := h
  rw [he]; exact Nat.mul_pos (by omega) hb

theorem Cfg.Ok.blk_le {cf : Cfg} (h : cf.Ok) : cf.blk ≤ cf.size := by
  obtain ⟨hb, m, hm, he⟩ := h
  rw [he]; exact Nat.le_mul_of_pos_left _ (by omega)

theorem inv_step {cf : Cfg} (hcf : cf.Ok) {q q' : Q α} (h : Inv cf q) {a : Act α}
    (e : step cf q a = some q') : Inv cf q' := by
  cases a with
  | reserve p it => exact inv_reserve h hcf.size_pos e
  | admit p => exact inv_admit h e
  | put p => exact inv_put h e
  | tryCas p => exact inv_cas h e
  | look p => exact inv_look h hcf.size_pos e
  | move => exact inv_move h hcf.size_pos e
  | evict => exact inv_evict h hcf.1 e
  | clear => exact inv_clear h hcf.size_pos e
  | restore => exact inv_restore h hcf.size_pos hcf.blk_le e
  | complete => exact inv_complete h e
  | punch => exact inv_punch h e

theorem inv_run {cf : Cfg} (hcf : cf.Ok) {q q' : Q α} (h : Inv cf q) {as : List (Act α)}
    (e : run cf q as = some q') : Inv cf q' := by
  induction as generalizing q with
  | nil => injection e with e; subst e; exact h
  | cons a as ih =>
    simp only [run, Option.bind_eq_some_iff] at e
    obtain ⟨q1, e1, e2⟩ := e
    exact ih (inv_step hcf h e1) e2

theorem inv_reach {cf : Cfg} (hcf : cf.Ok) {q : Q α} (h : Reach cf q) : Inv cf q := by
  obtain ⟨as, e⟩ := h
  exact inv_run hcf (inv_init cf) e

/-- The reading order of a rewind. -/
theorem walk_ok {cf : Cfg} {q : Q α} (h : Inv cf q) (hl : q.lock = none) (hb : 0 < cf.blk) :
    ∀ (n pos k : Nat) (tmp : Nat → Option α), q.c + n = pos + 1 → pos < q.af →
      (q.r ≤ pos → pos < q.e → k ≤ pos + 1 - q.r ∧ cf.blk ∣ (pos + 1 - q.r - k) ∧
        ∀ i, i < k → tmp i = q.log[pos + 1 - k + i]?) →
      (q.e ≤ pos → k = 0) →
      walk cf q n pos k tmp = ((List.range n).map (fun i => q.log[pos - i]?)) := by
  intro n
  have ht : top q = q.e := by simp [top, hl]
  induction n with
  | zero => intro pos k tmp _ _ _ _; rfl
  | succ n ih =>
    intro pos k tmp hn hp hk he
    have hrest : ∀ (k' : Nat) (tmp' : Nat → Option α), (n ≠ 0 → walk cf q n (pos - 1) k' tmp' =
        ((List.range n).map (fun i => q.log[pos - 1 - i]?))) →
        walk cf q n (pos - 1) k' tmp' = (List.range n).map (fun i => q.log[pos - (i + 1)]?) := by
      intro k' tmp' hw
      by_cases h0 : n = 0
      · subst h0; rfl
      · rw [hw h0]
        apply List.map_congr_left
        intro i _
        congr 1
        omega
    rw [List.range_succ_eq_map, List.map_cons, List.map_map]
    simp only [Function.comp_def, Nat.sub_zero]
    have h1 := h.cr; have h2 := h.re; have h3 := h.eaf; have h4 := h.afar
    have hal := h.al
    rw [ht] at hal
    rw [walk]
    by_cases c1 : q.e ≤ pos
    · rw [if_pos c1, (h.add1 pos c1 (by omega) (by intro i hi; have := h.pr i _ hi; omega)).1]
      congr 1
      refine hrest _ _ (fun h0 => ih (pos - 1) k tmp (by omega) (by omega) ?_ ?_)
      · intro g1 g2
        have hk0 := he c1
        subst hk0
        have hpe : pos - 1 + 1 - q.r - 0 = q.e - q.r := by omega
        rw [hpe]
        exact ⟨by omega, hal, fun i hi => by omega⟩
      · intro _; exact he c1
    · rw [if_neg c1]
      by_cases c2 : q.r ≤ pos
      · rw [if_pos c2]
        obtain ⟨k1, k2, k3⟩ := hk c2 (by omega)
        by_cases k0 : k = 0
        · subst k0
          rw [Nat.sub_zero] at k2
          have hle := Nat.le_of_dvd (by omega) k2
          have hdisk : ∀ i, i < cf.blk → q.disk (pos + 1 - cf.blk + i) = q.log[pos + 1 - cf.blk + i]? :=
            fun i hi => h.disk1 _ (by omega) (by rw [ht]; omega)
          simp only [if_true]
          have hx : pos + 1 - cf.blk + (cf.blk - 1) = pos := by omega
          congr 1
          · rw [hdisk _ (by omega), hx]
          · refine hrest _ _ (fun h0 => ih (pos - 1) _ _ (by omega) (by omega) ?_ ?_)
            · intro g1 g2
              refine ⟨by omega, ?_, ?_⟩
              · have : pos - 1 + 1 - q.r - (cf.blk - 1) = pos + 1 - q.r - cf.blk := by omega
                rw [this]
                exact Nat.dvd_sub k2 (Nat.dvd_refl _)
              · intro i hi
                rw [hdisk i (by omega)]
                congr 1; omega
            · intro g; omega
        · simp only [if_neg k0]
          congr 1
          · rw [k3 (k - 1) (by omega)]
            congr 1; omega
          · refine hrest _ _ (fun h0 => ih (pos - 1) _ _ (by omega) (by omega) ?_ ?_)
            · intro g1 g2
              refine ⟨by omega, ?_, ?_⟩
              · have : pos - 1 + 1 - q.r - (k - 1) = pos + 1 - q.r - k := by omega
                rw [this]; exact k2
              · intro i hi
                rw [k3 i (by omega)]
                congr 1; omega
            · intro g; omega
      · rw [if_neg c2, h.comp1 pos (by omega) (by omega)]
        congr 1
        refine hrest _ _ (fun h0 => ih (pos - 1) k tmp (by omega) (by omega) ?_ ?_)
        · intro g1 g2; omega
        · intro g; omega

/-- What a rewind reads are the items from `completePos` to `addPosFilledUpto`, newest
first. -/
theorem walkAll_ok {cf : Cfg} {q : Q α} (h : Inv cf q) (hl : q.lock = none) (hb : 0 < cf.blk) :
    walkAll cf q = (((q.log.take q.af).drop q.c).reverse).map some := by
  have h1 := h.cr; have h2 := h.re; have h3 := h.eaf; have h4 := h.afar; have h5 := h.arl
  have ht : top q = q.e := by simp [top, hl]
  by_cases h0 : q.af = q.c
  · have e1 : q.af - q.c = 0 := by omega
    rw [walkAll, e1, walk, h0]
    simp
  · rw [walkAll, walk_ok h hl hb _ _ _ _ (by omega) (by omega) ?_ ?_]
    · apply List.ext_getElem?
      intro i
      simp only [List.getElem?_map]
      by_cases hi : i < q.af - q.c
      · have hlen : ((q.log.take q.af).drop q.c).length = q.af - q.c := by
          simp only [List.length_drop, List.length_take]; omega
        rw [List.getElem?_reverse (by omega), hlen]
        simp only [List.getElem?_range hi, Option.map_some, List.getElem?_drop]
        have e2 : q.c + (q.af - q.c - 1 - i) = q.af - 1 - i := by omega
        rw [e2, List.getElem?_take_of_lt (by omega), List.getElem?_eq_getElem (by omega)]
        rfl
      · rw [List.getElem?_eq_none (by simp; omega), List.getElem?_eq_none (by simp; omega)]
        rfl
    · intro g1 g2
      have hal := h.al
      rw [ht] at hal
      have : q.af - 1 + 1 - q.r - 0 = q.e - q.r := by omega
      rw [this]
      exact ⟨by omega, hal, fun i hi => by omega⟩
    · intro _; rfl

end Verif.Rewind
