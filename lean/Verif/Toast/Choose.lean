/-
`tts_orioledb_toast`: every value is kept, and the row fits if it can.
-/
import Verif.Toast.Chunks

namespace Verif.Toast

/-! ### The search for the largest value -/

theorem pickGo_some {cfg : Cfg} {p : Col → Bool} {cs : List Col} {i max j : Nat}
    {best : Option Nat} (h : pickGo cfg p cs i max best = some j) :
    best = some j ∨ ∃ c, i ≤ j ∧ cs[j - i]? = some c ∧ p c = true := by
  induction cs generalizing i max best with
  | nil => exact Or.inl h
  | cons c cs ih =>
    unfold pickGo at h
    by_cases hc : (p c && decide (max < varSize cfg c.d)) = true
    · rw [if_pos hc] at h
      rcases ih h with h' | ⟨x, h1, h2, h3⟩
      · right
        have hij : i = j := by simpa using h'
        subst hij
        have : p c = true := by
          rw [Bool.and_eq_true] at hc; exact hc.1
        exact ⟨c, Nat.le_refl _, by simp, this⟩
      · right
        refine ⟨x, by omega, ?_, h3⟩
        rw [show j - i = (j - (i + 1)) + 1 by omega, List.getElem?_cons_succ]
        exact h2
    · rw [if_neg hc] at h
      rcases ih h with h' | ⟨x, h1, h2, h3⟩
      · exact Or.inl h'
      · right
        refine ⟨x, by omega, ?_, h3⟩
        rw [show j - i = (j - (i + 1)) + 1 by omega, List.getElem?_cons_succ]
        exact h2

theorem pickGo_none {cfg : Cfg} {p : Col → Bool} {cs : List Col} {i max : Nat}
    {best : Option Nat} (h : pickGo cfg p cs i max best = none) :
    best = none ∧ ∀ c ∈ cs, p c = true → varSize cfg c.d ≤ max := by
  induction cs generalizing i max best with
  | nil => exact ⟨h, by simp⟩
  | cons c cs ih =>
    unfold pickGo at h
    by_cases hc : (p c && decide (max < varSize cfg c.d)) = true
    · rw [if_pos hc] at h
      exact absurd (ih h).1 (by simp)
    · rw [if_neg hc] at h
      obtain ⟨h1, h2⟩ := ih h
      refine ⟨h1, ?_⟩
      intro x hx hp
      rcases List.mem_cons.mp hx with hx | hx
      · subst hx
        simp [hp] at hc
        exact hc
      · exact h2 x hx hp

/-- A candidate is found if there is one. -/
theorem pick_some {cfg : Cfg} {p : Col → Bool} {cs : List Col} {j : Nat}
    (h : pickGo cfg p cs 0 0 none = some j) : ∃ c, cs[j]? = some c ∧ p c = true := by
  rcases pickGo_some h with h | ⟨c, _, h2, h3⟩
  · cases h
  · exact ⟨c, by simpa using h2, h3⟩

theorem varSize_pos {cfg : Cfg} (hp : 0 < cfg.ptr) {d : Datum} (h : d ≠ .null) :
    0 < varSize cfg d := by
  cases d with
  | null => exact absurd rfl h
  | flat f => simp only [varSize, image_length]; omega
  | ext p => exact hp
  | heap f => exact hp

theorem pick_none {cfg : Cfg} {p : Col → Bool} {cs : List Col} (hp : 0 < cfg.ptr)
    (h : pickGo cfg p cs 0 0 none = none) : ∀ c ∈ cs, p c = true → c.d = .null := by
  intro c hc hpc
  by_cases hd : c.d = .null
  · exact hd
  · have := (pickGo_none h).2 c hc hpc
    have := varSize_pos hp hd
    omega

/-! ### Lists -/

theorem sum_modify (f : Col → Nat) (g : Col → Col) :
    ∀ (cs : List Col) (i : Nat) (c : Col), cs[i]? = some c →
      ((cs.modify i g).map f).sum + f c = (cs.map f).sum + f (g c) := by
  intro cs
  induction cs with
  | nil => intro i c h; simp at h
  | cons x cs ih =>
    intro i c h
    cases i with
    | zero =>
      simp at h
      subst h
      simp [List.modify_cons]
      omega
    | succ i =>
      simp at h
      have := ih i c h
      simp
      omega

theorem forall_modify {P : Nat → Col → Prop} {g : Col → Col} {cs : List Col} {i : Nat}
    (h : ∀ (k : Nat) c, cs[k]? = some c → P k c)
    (hg : ∀ c, cs[i]? = some c → P i (g c)) :
    ∀ (k : Nat) c, (cs.modify i g)[k]? = some c → P k c := by
  intro k c hk
  rw [List.getElem?_modify] at hk
  by_cases hik : i = k
  · subst hik
    simp only [if_pos] at hk
    cases hc : cs[i]? with
    | none => rw [hc] at hk; simp at hk
    | some x =>
      rw [hc] at hk
      simp at hk
      exact hk ▸ hg x hc
  · simp only [if_neg hik] at hk
    cases hc : cs[k]? with
    | none => rw [hc] at hk; simp at hk
    | some x =>
      rw [hc] at hk
      simp at hk
      exact hk ▸ h k x hc

/-! ### Every value is kept -/

/-- What is true of each column, and stays true whatever the loops do with a column that is a
candidate: `P i c` for column number `i`. -/
structure Keeps (cfg : Cfg) (P : Nat → Col → Prop) : Prop where
  s1 : ∀ i c, P i c → cand1 c = true → P i (step1 cfg c)
  s2 : ∀ i c, P i c → cand2 c = true → P i { c with flag := .on }

theorem loop1_keeps {cfg : Cfg} {P : Nat → Col → Prop} (hk : Keeps cfg P) :
    ∀ (fuel : Nat) (cs : List Col), (∀ (k : Nat) c, cs[k]? = some c → P k c) →
      (∀ (k : Nat) c, (loop1 cfg fuel cs)[k]? = some c → P k c) ∧
        (loop1 cfg fuel cs).length = cs.length := by
  intro fuel
  induction fuel with
  | zero => intro cs h; exact ⟨h, rfl⟩
  | succ fuel ih =>
    intro cs h
    unfold loop1
    by_cases hc : ((cs.filter (·.flag != .off)).length < cs.length && !fits cfg cs) = true
    · rw [if_pos (by simpa using hc)]
      cases hp : pickGo cfg cand1 cs 0 0 none with
      | none => exact ⟨h, rfl⟩
      | some i =>
        obtain ⟨x, hx, hcx⟩ := pick_some hp
        have := ih (cs.modify i (step1 cfg)) (forall_modify h fun c hc' => by
          rw [hx] at hc'
          have : x = c := by simpa using hc'
          subst this
          exact hk.s1 i x (h i x hx) hcx)
        exact ⟨this.1, by rw [this.2, List.length_modify]⟩
    · rw [if_neg (by simpa using hc)]
      exact ⟨h, rfl⟩

theorem loop2_keeps {cfg : Cfg} {P : Nat → Col → Prop} (hk : Keeps cfg P) :
    ∀ (fuel : Nat) (cs : List Col), (∀ (k : Nat) c, cs[k]? = some c → P k c) →
      (∀ (k : Nat) c, (loop2 cfg fuel cs)[k]? = some c → P k c) ∧
        (loop2 cfg fuel cs).length = cs.length := by
  intro fuel
  induction fuel with
  | zero => intro cs h; exact ⟨h, rfl⟩
  | succ fuel ih =>
    intro cs h
    unfold loop2
    by_cases hc : fits cfg cs = true
    · rw [if_pos hc]; exact ⟨h, rfl⟩
    · rw [if_neg hc]
      cases hp : pickGo cfg cand2 cs 0 0 none with
      | none => exact ⟨h, rfl⟩
      | some i =>
        obtain ⟨x, hx, hcx⟩ := pick_some hp
        have := ih (cs.modify i fun c => { c with flag := .on }) (forall_modify h fun c hc' => by
          rw [hx] at hc'
          have : x = c := by simpa using hc'
          subst this
          exact hk.s2 i x (h i x hx) hcx)
        exact ⟨this.1, by rw [this.2, List.length_modify]⟩

/-! ### The row fits -/

/-- How often the first loop may still treat a column. -/
def rounds (c : Col) : Nat :=
  match c.flag, c.d with
  | .off, .null => 0
  | .off, .flat f => if f.comp then 1 else 2
  | .off, _ => 1
  | _, _ => 0

theorem rounds_step1 {cfg : Cfg} {c : Col} (h : cand1 c = true) :
    rounds (step1 cfg c) < rounds c := by
  obtain ⟨m, d, fl⟩ := c
  cases fl <;> simp [cand1] at h
  cases d with
  | null => simp at h
  | flat f =>
    obtain ⟨cp, b⟩ := f
    cases cp
    · simp only [step1, Datum.isComp, Bool.false_or]
      by_cases hm : (m == Mode.external) = true
      · rw [if_pos hm]; simp [rounds]
      · rw [if_neg hm]
        cases cfg.pack b with
        | some b' => simp [rounds]
        | none =>
          by_cases hm' : (m == Mode.main) = true
          · simp [hm', rounds]
          · simp [hm', rounds]
    · simp [step1, Datum.isComp, rounds]
  | ext p => simp [step1, Datum.isComp, rounds]
  | heap f => simp [step1, Datum.isComp, rounds]

theorem sum_rounds_le (cs : List Col) : (cs.map rounds).sum ≤ 2 * cs.length := by
  induction cs with
  | nil => simp
  | cons c cs ih =>
    have : rounds c ≤ 2 := by
      unfold rounds
      split <;> try omega
      split <;> omega
    simp
    omega

theorem all_flagged {cs : List Col}
    (h : ¬ (cs.filter (·.flag != .off)).length < cs.length) : ∀ c ∈ cs, c.flag ≠ .off := by
  have hle : (cs.filter (·.flag != .off)).length = cs.length :=
    Nat.le_antisymm (List.length_filter_le ..) (by omega)
  intro c hc
  have := (List.length_filter_eq_length_iff.mp hle) c hc
  simpa using this

/-- The first loop ends when the row fits or there is nothing left to treat. -/
theorem loop1_end {cfg : Cfg} (hp : 0 < cfg.ptr) : ∀ (fuel : Nat) (cs : List Col),
    (cs.map rounds).sum < fuel →
    fits cfg (loop1 cfg fuel cs) = true ∨
      ∀ c ∈ loop1 cfg fuel cs, cand1 c = true → c.d = .null := by
  intro fuel
  induction fuel with
  | zero => intro cs h; omega
  | succ fuel ih =>
    intro cs h
    unfold loop1
    by_cases hc : ((cs.filter (·.flag != .off)).length < cs.length && !fits cfg cs) = true
    · rw [if_pos (by simpa using hc)]
      cases hpk : pickGo cfg cand1 cs 0 0 none with
      | none => exact Or.inr (pick_none hp hpk)
      | some i =>
        obtain ⟨x, hx, hcx⟩ := pick_some hpk
        apply ih
        have h1 := sum_modify rounds (step1 cfg) cs i x hx
        have h2 := rounds_step1 (cfg := cfg) hcx
        omega
    · rw [if_neg (by simpa using hc)]
      by_cases hf : fits cfg cs = true
      · exact Or.inl hf
      · right
        have hn : ¬ (cs.filter (·.flag != .off)).length < cs.length := by
          intro hl
          apply hc
          simp [hl, hf]
        intro c hcm hcc
        have := all_flagged hn c hcm
        simp [cand1] at hcc
        exact absurd hcc.1.2 this

/-- Columns the second loop may still move. -/
def left2 (c : Col) : Nat := if c.flag = .on then 0 else 1

theorem loop2_end {cfg : Cfg} (hp : 0 < cfg.ptr) : ∀ (fuel : Nat) (cs : List Col),
    (cs.map left2).sum < fuel →
    fits cfg (loop2 cfg fuel cs) = true ∨
      ∀ c ∈ loop2 cfg fuel cs, cand2 c = true → c.d = .null := by
  intro fuel
  induction fuel with
  | zero => intro cs h; omega
  | succ fuel ih =>
    intro cs h
    unfold loop2
    by_cases hc : fits cfg cs = true
    · rw [if_pos hc]; exact Or.inl hc
    · rw [if_neg hc]
      cases hpk : pickGo cfg cand2 cs 0 0 none with
      | none => exact Or.inr (pick_none hp hpk)
      | some i =>
        obtain ⟨x, hx, hcx⟩ := pick_some hpk
        apply ih
        have h1 := sum_modify left2 (fun c => { c with flag := .on }) cs i x hx
        have h2 : left2 x = 1 := by
          simp [cand2] at hcx
          simp [left2, hcx.1.2]
        have h3 : left2 { x with flag := .on } = 0 := by simp [left2]
        omega

theorem sum_left2_le (cs : List Col) : (cs.map left2).sum ≤ cs.length := by
  induction cs with
  | nil => simp
  | cons c cs ih =>
    have : left2 c ≤ 1 := by unfold left2; split <;> omega
    simp; omega

/-- If the second loop changes anything, no column was left for the first. -/
def Done1 (c : Col) : Prop := cand1 c = true → c.d = .null

theorem sum_cost_le {cfg : Cfg} {cs : List Col}
    (h : ∀ c ∈ cs, c.d ≠ .null → c.flag = .on) :
    (cs.map (cost cfg)).sum ≤ (cs.map fun _ => 12).sum := by
  induction cs with
  | nil => simp
  | cons c cs ih =>
    have ih' := ih fun x hx => h x (List.mem_cons_of_mem _ hx)
    have hc : cost cfg c ≤ 12 := by
      unfold cost
      by_cases hf : c.flag = .on
      · rw [if_pos hf]; omega
      · rw [if_neg hf]
        have hd : c.d = .null := by
          by_cases hd : c.d = .null
          · exact hd
          · exact absurd (h c (List.mem_cons_self ..) hd) hf
        rw [hd]; simp
    simp only [List.map_cons, List.sum_cons]
    omega

theorem sum_const (cs : List Col) : (cs.map fun _ => 12).sum = 12 * cs.length := by
  induction cs with
  | nil => simp
  | cons c cs ih => simp only [List.map_cons, List.sum_cons, ih, List.length_cons]; omega

theorem tupleLen_on (cfg : Cfg) (cs : List Col) :
    tupleLen cfg (cs.map fun c => { c with flag := .on }) = cfg.base + 12 * cs.length := by
  unfold tupleLen
  rw [List.map_map, ← sum_const]
  congr 1
  
theorem cost_reset (cfg : Cfg) (c : Col) :
    cost cfg (if c.flag = .tried then { c with flag := .off } else c) = cost cfg c := by
  by_cases h : c.flag = .tried
  · rw [if_pos h]; simp [cost, h]
  · rw [if_neg h]

theorem fits_reset (cfg : Cfg) (cs : List Col) :
    fits cfg (cs.map fun c => if c.flag = .tried then { c with flag := .off } else c)
      = fits cfg cs := by
  unfold fits tupleLen
  rw [List.map_map]
  have : (cost cfg ∘ fun c => if c.flag = .tried then { c with flag := .off } else c)
      = cost cfg := by
    funext c; exact cost_reset cfg c
  rw [this]

/-- Facts about each column during the loops. -/
def Loop (c : Col) : Prop :=
  (c.flag = .tried → c.mode = .main) ∧ (c.d.isPtr = true → c.flag = .on)

theorem loop_keeps (cfg : Cfg) : Keeps cfg fun _ => Loop := by
  constructor
  · intro _ c h hc
    obtain ⟨m, d, fl⟩ := c
    simp only [step1]
    by_cases h1 : (d.isComp || m == .external) = true
    · rw [if_pos h1]; exact ⟨by simp, by simp⟩
    · rw [if_neg h1]
      cases d with
      | flat f =>
        simp only
        cases cfg.pack f.bytes with
        | some b => exact ⟨by simpa [Loop] using h.1, by simp [Datum.isPtr]⟩
        | none =>
          by_cases hm : (m == .main) = true
          · simp only [hm, if_pos]; exact ⟨fun _ => by simpa using hm, by simp [Datum.isPtr]⟩
          · simp only [if_neg hm]; exact ⟨by simp, by simp⟩
      | null => exact ⟨by simp, by simp⟩
      | ext p => exact ⟨by simp, by simp⟩
      | heap f => exact ⟨by simp, by simp⟩
  · intro _ c _ _
    exact ⟨by simp, by simp⟩

theorem done_keeps (cfg : Cfg) : ∀ (fuel : Nat) (cs : List Col),
    (∀ c ∈ cs, Done1 c) → ∀ c ∈ loop2 cfg fuel cs, Done1 c := by
  intro fuel
  induction fuel with
  | zero => intro cs h; exact h
  | succ fuel ih =>
    intro cs h
    unfold loop2
    by_cases hc : fits cfg cs = true
    · rw [if_pos hc]; exact h
    · rw [if_neg hc]
      cases hpk : pickGo cfg cand2 cs 0 0 none with
      | none => exact h
      | some i =>
        apply ih
        intro c hcm
        obtain ⟨k, hk⟩ := List.getElem?_of_mem hcm
        exact forall_modify (P := fun _ => Done1) (fun k c hk => h c (List.mem_of_getElem? hk))
          (fun c _ => by intro hx; simp [cand1] at hx) k c hk

/-- **The row fits after `tts_orioledb_toast`, if it fits with all values moved.** -/
theorem toastCols_fits {cfg : Cfg} (hp : 0 < cfg.ptr) {cs : List Col}
    (hf : cfg.base + 12 * cs.length ≤ cfg.maxTuple) (h0 : ∀ c ∈ cs, c.flag = .off) :
    fits cfg (toastCols cfg cs) = true := by
  unfold toastCols
  by_cases h1 : (!cs.any (·.d.isPtr) && fits cfg cs) = true
  · rw [if_pos h1]
    rw [Bool.and_eq_true] at h1; exact h1.2
  · rw [if_neg h1]
    have hon : fits cfg (cs.map fun c => { c with flag := .on }) = true := by
      unfold fits; rw [tupleLen_on]; simpa using hf
    rw [if_neg (by simp [hon])]
    simp only
    rw [fits_reset]
    obtain ⟨cs1, hcs1⟩ : ∃ x, x = cs.map fun c => if c.d.isPtr then { c with flag := Flag.on } else c :=
      ⟨_, rfl⟩
    rw [← hcs1]
    have hl1 : cs1.length = cs.length := by rw [hcs1, List.length_map]
    have hloop1 : ∀ (k : Nat) c, cs1[k]? = some c → Loop c := by
      intro k c hk
      have hm := List.mem_of_getElem? hk
      rw [hcs1] at hm
      obtain ⟨x, hx, rfl⟩ := List.mem_map.mp hm
      by_cases hpx : x.d.isPtr = true
      · rw [if_pos hpx]; exact ⟨by simp, by simp⟩
      · rw [if_neg hpx]; exact ⟨by rw [h0 x hx]; simp, fun h => absurd h hpx⟩
    have hr := sum_rounds_le cs1
    have hk1 := loop1_keeps (loop_keeps cfg) (2 * cs.length + 1) cs1 hloop1
    have he1 := loop1_end (cfg := cfg) hp (2 * cs.length + 1) cs1 (by omega)
    obtain ⟨cs2, hcs2⟩ : ∃ x, x = loop1 cfg (2 * cs.length + 1) cs1 := ⟨_, rfl⟩
    rw [← hcs2] at hk1 he1 ⊢
    rcases he1 with he1 | he1
    · unfold loop2
      rw [if_pos he1]
      exact he1
    · have hl := sum_left2_le cs2
      have hk2 := loop2_keeps (loop_keeps cfg) (cs.length + 1) cs2 hk1.1
      have he2 := loop2_end (cfg := cfg) hp (cs.length + 1) cs2 (by omega)
      have hd2 := done_keeps cfg (cs.length + 1) cs2 he1
      obtain ⟨cs3, hcs3⟩ : ∃ x, x = loop2 cfg (cs.length + 1) cs2 := ⟨_, rfl⟩
      rw [← hcs3] at hk2 he2 hd2 ⊢
      rcases he2 with he2 | he2
      · exact he2
      · have hall : ∀ c ∈ cs3, c.d ≠ .null → c.flag = .on := by
          intro c hc hnn
          obtain ⟨k, hk⟩ := List.getElem?_of_mem hc
          have hL := hk2.1 k c hk
          by_cases hon' : c.flag = .on
          · exact hon'
          · have hm : c.mode ≠ .main := by
              intro hm
              exact hnn (he2 c hc (by simp [cand2, hnn, hon', hm]))
            have hoff : c.flag = .off := by
              cases hfl : c.flag with
              | off => rfl
              | on => exact absurd hfl hon'
              | tried => exact absurd (hL.1 hfl) hm
            exact absurd (hd2 c hc (by simp [cand1, hnn, hoff, hm])) hnn
        have := sum_cost_le (cfg := cfg) hall
        rw [sum_const] at this
        unfold fits tupleLen
        have hl3 : cs3.length = cs.length := by omega
        rw [hl3] at this
        simp
        omega

/-- A fact about the columns which no step breaks is true of the result.  Either the columns
are left as they were, or the pointers have been marked and the loops done. -/
theorem toastCols_keeps {cfg : Cfg} {P : Nat → Col → Prop} (hk : Keeps cfg P) {cs : List Col}
    (hf : cfg.base + 12 * cs.length ≤ cfg.maxTuple)
    (h : ∀ (k : Nat) c, cs[k]? = some c →
      P k (if c.d.isPtr then { c with flag := .on } else c))
    (ht : ∀ k c, P k c → c.flag = .tried → P k { c with flag := .off }) :
    (∀ (k : Nat) c, (toastCols cfg cs)[k]? = some c → P k c) ∧
      (toastCols cfg cs).length = cs.length := by
  unfold toastCols
  by_cases h1 : (!cs.any (·.d.isPtr) && fits cfg cs) = true
  · rw [if_pos h1]
    refine ⟨?_, rfl⟩
    intro k c hc
    have hnp : ¬ c.d.isPtr = true := by
      intro hp
      rw [Bool.and_eq_true] at h1
      have : cs.any (·.d.isPtr) = true :=
        List.any_eq_true.mpr ⟨c, List.mem_of_getElem? hc, hp⟩
      rw [this] at h1
      simp at h1
    have := h k c hc
    rwa [if_neg hnp] at this
  · rw [if_neg h1]
    have hon : fits cfg (cs.map fun c => { c with flag := .on }) = true := by
      unfold fits; rw [tupleLen_on]; simpa using hf
    rw [if_neg (by simp [hon])]
    simp only
    have hk1 := loop1_keeps hk (2 * cs.length + 1)
      (cs.map fun c => if c.d.isPtr then { c with flag := .on } else c) (by
        intro k c hc
        rw [List.getElem?_map] at hc
        cases hx : cs[k]? with
        | none => rw [hx] at hc; simp at hc
        | some x =>
          rw [hx] at hc
          simp at hc
          rw [← hc]
          exact h k x hx)
    have hk2 := loop2_keeps hk (cs.length + 1) _ hk1.1
    refine ⟨?_, by rw [List.length_map, hk2.2, hk1.2, List.length_map]⟩
    intro k c hc
    rw [List.getElem?_map] at hc
    obtain ⟨x, hx, hxc⟩ := Option.map_eq_some_iff.mp hc
    have := hk2.1 k x hx
    by_cases hfl : x.flag = .tried
    · rw [if_pos hfl] at hxc
      rw [← hxc]; exact ht k x this hfl
    · rw [if_neg hfl] at hxc
      rw [← hxc]; exact this

end Verif.Toast
