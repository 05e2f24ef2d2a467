import Verif.S3Queue.Model

namespace Verif.S3Queue

/-! ## Ring arithmetic -/

theorem mod_off {N loc p : Nat} (h1 : loc ≤ p) (h2 : p < loc + N) :
    p % N = if loc % N + (p - loc) < N then loc % N + (p - loc) else loc % N + (p - loc) - N := by
  have hN : 0 < N := by omega
  have e : p = loc + (p - loc) := by omega
  have hlt := Nat.mod_lt loc hN
  have : p % N = (loc % N + (p - loc)) % N := by
    rw [Nat.mod_add_mod, ← e]
  rw [this]
  split
  · rw [Nat.mod_eq_of_lt (by assumption)]
  · rw [Nat.mod_eq_sub_mod (by omega), Nat.mod_eq_of_lt (by omega)]

theorem straddle_iff {N loc n : Nat} (hN : 0 < N) :
    loc / N = (loc + (n + 1) - 1) / N ↔ loc % N + n < N := by
  have e : loc + (n + 1) - 1 = N * (loc / N) + (loc % N + n) := by
    have := Nat.div_add_mod loc N
    omega
  rw [e, Nat.mul_add_div hN]
  constructor
  · intro h
    have : (loc % N + n) / N = 0 := by omega
    rcases Nat.div_eq_zero_iff.1 this with h | h <;> omega
  · intro h
    rw [Nat.div_eq_of_lt h]
    rfl

theorem getD_take {α : Type} {l : List α} {n i : Nat} {d : α} (h : i < n) :
    (l.take n).getD i d = l.getD i d := by
  simp [List.getD_eq_getElem?_getD, h]

theorem getD_drop {α : Type} {l : List α} {n i : Nat} {d : α} :
    (l.drop n).getD i d = l.getD (n + i) d := by
  simp [List.getD_eq_getElem?_getD, List.getElem?_drop]

theorem ring_write_at {N loc p : Nat} {mem : Nat → Word} {hdr : Word} {data : List Word}
    (hfit : data.length + 1 ≤ N) (h1 : loc ≤ p) (h2 : p < loc + N) :
    set (writeBody N mem loc data) (loc % N) hdr (p % N) =
      if p < loc + (data.length + 1) then (hdr :: data).getD (p - loc) 0 else mem (p % N) := by
  have hN : 0 < N := by omega
  have hlt := Nat.mod_lt loc hN
  have hm := mod_off h1 h2
  have hget : ∀ j, 0 < j → (hdr :: data).getD j 0 = data.getD (j - 1) 0 := by
    intro j hj
    cases j with
    | zero => omega
    | succ j => rfl
  unfold set
  by_cases hz : p = loc
  · subst hz
    rw [if_pos rfl, if_pos (by omega), Nat.sub_self]
    rfl
  · have hne : p % N ≠ loc % N := by
      rw [hm]; split <;> omega
    rw [if_neg hne]
    unfold writeBody
    dsimp only
    by_cases hs : loc % N + data.length < N
    · rw [if_pos ((straddle_iff hN).2 hs)]
      unfold blit
      by_cases hin : p < loc + (data.length + 1)
      · have hm' : p % N = loc % N + (p - loc) := by rw [hm, if_pos (by omega)]
        rw [if_pos (by omega), if_pos hin, hget _ (by omega)]
        congr 1
        omega
      · rw [if_neg hin]
        apply if_neg
        intro hc
        split at hm <;> omega
    · rw [if_neg (fun h => hs ((straddle_iff hN).1 h))]
      unfold blit
      rw [List.length_drop, List.length_take]
      by_cases hin : p < loc + (data.length + 1)
      · rw [if_pos hin, hget _ (by omega)]
        by_cases hw : loc % N + (p - loc) < N
        · rw [if_pos hw] at hm
          rw [if_neg (by omega), if_pos (by omega), getD_take (by omega)]
          congr 1
          omega
        · rw [if_neg hw] at hm
          rw [if_pos (by omega), getD_drop]
          congr 1
          omega
      · rw [if_neg hin]
        rw [if_neg (by intro hc; split at hm <;> omega), if_neg (by intro hc; split at hm <;> omega)]

theorem add_mod_self' {N p : Nat} : (p + N) % N = p % N := Nat.add_mod_right p N

/-- Writing a task into the ring, seen through a window of ring positions. -/
theorem ring_write {N loc p w : Nat} {mem : Nat → Word} {hdr : Word} {data : List Word}
    (hw : w ≤ loc) (hfit : loc + (data.length + 1) ≤ w + N) (h1 : w ≤ p) (h2 : p < w + N) :
    set (writeBody N mem loc data) (loc % N) hdr (p % N) =
      if loc ≤ p ∧ p < loc + (data.length + 1) then (hdr :: data).getD (p - loc) 0
      else mem (p % N) := by
  by_cases hp : loc ≤ p
  · rw [ring_write_at (by omega) hp (by omega)]
    by_cases hq : p < loc + (data.length + 1)
    · rw [if_pos hq, if_pos ⟨hp, hq⟩]
    · rw [if_neg hq, if_neg (by omega)]
  · have := ring_write_at (N := N) (loc := loc) (p := p + N) (mem := mem) (hdr := hdr) (data := data)
      (by omega) (by omega) (by omega)
    rw [add_mod_self', if_neg (by omega)] at this
    rw [this, if_neg (by omega)]

theorem mod_ne {N a b : Nat} (h1 : a < b) (h2 : b < a + N) : a % N ≠ b % N := by
  intro h
  have hm := mod_off (Nat.le_of_lt h1) h2
  have hN : 0 < N := by omega
  have hlt := Nat.mod_lt a hN
  rw [← h] at hm
  split at hm <;> omega

/-! ## What the ring should contain -/

/-- Word number `j` of a task in the ring. -/
def Task.word (t : Task) (j : Nat) : Word :=
  match t.st with
  | .reserved => 0
  | .filled => (4 * t.len :: t.data).getD j 0
  | .picked => (4 * t.len :: t.data).getD j 0
  | .flagged => if j = 0 then 4 * t.len + FLAG else 0
  | .done => 0

/-- The word at location `p` of the infinite queue. -/
def cell : List Task → Nat → Word
  | [], _ => 0
  | t :: ts, p => if p < t.len then t.word p else cell ts (p - t.len)

theorem locOf_zero (ts : List Task) : locOf ts 0 = 0 := rfl

theorem locOf_cons (t : Task) (ts : List Task) (k : Nat) :
    locOf (t :: ts) (k + 1) = t.len + locOf ts k := rfl

theorem locOf_succ {ts : List Task} {k : Nat} {t : Task} (h : ts[k]? = some t) :
    locOf ts (k + 1) = locOf ts k + t.len := by
  induction ts generalizing k with
  | nil => simp at h
  | cons a ts ih =>
    cases k with
    | zero => simp at h; subst h; simp [locOf, total]
    | succ k =>
      rw [locOf_cons, locOf_cons, ih (by simpa using h)]
      omega

theorem locOf_length (ts : List Task) : locOf ts ts.length = total ts := by
  unfold locOf; rw [List.take_length]

theorem locOf_mono {ts : List Task} {i j : Nat} (h : i ≤ j) : locOf ts i ≤ locOf ts j := by
  induction ts generalizing i j with
  | nil => simp [locOf, total]
  | cons a ts ih =>
    cases i with
    | zero => rw [locOf_zero]; omega
    | succ i =>
      cases j with
      | zero => omega
      | succ j => rw [locOf_cons, locOf_cons]; have := ih (i := i) (j := j) (by omega); omega

theorem locOf_strict {ts : List Task} {i j : Nat} (h : i < j) (hj : j ≤ ts.length) :
    locOf ts i < locOf ts j := by
  have hi : i < ts.length := by omega
  have h1 := locOf_succ (List.getElem?_eq_getElem hi)
  have h2 := locOf_mono (ts := ts) (i := i + 1) (j := j) h
  unfold Task.len at h1
  omega

theorem locOf_inj {ts : List Task} {i j : Nat} (hi : i ≤ ts.length) (hj : j ≤ ts.length)
    (h : locOf ts i = locOf ts j) : i = j := by
  rcases Nat.lt_trichotomy i j with hlt | heq | hgt
  · have := locOf_strict hlt hj; omega
  · exact heq
  · have := locOf_strict hgt hi; omega

theorem total_append (a b : List Task) : total (a ++ b) = total a + total b := by
  induction a with
  | nil => simp [total]
  | cons t a ih => simp only [List.cons_append, total, ih]; omega

theorem locOf_append {ts : List Task} {t : Task} {k : Nat} (h : k ≤ ts.length) :
    locOf (ts ++ [t]) k = locOf ts k := by
  unfold locOf; rw [List.take_append_of_le_length h]

theorem setSt_get {ts : List Task} {k i : Nat} {st : St} :
    (setSt ts k st)[i]? = if k = i then ts[i]?.map (fun t => { t with st := st }) else ts[i]? := by
  unfold setSt
  rw [List.getElem?_modify]
  by_cases h : k = i
  · subst h; rw [if_pos rfl]; cases ts[k]? <;> simp
  · simp [h]

theorem setSt_length {ts : List Task} {k : Nat} {st : St} : (setSt ts k st).length = ts.length := by
  unfold setSt; simp

theorem setSt_cons_succ {a : Task} {ts : List Task} {k : Nat} {st : St} :
    setSt (a :: ts) (k + 1) st = a :: setSt ts k st := by
  unfold setSt; simp

theorem setSt_cons_zero {a : Task} {ts : List Task} {st : St} :
    setSt (a :: ts) 0 st = { a with st := st } :: ts := by
  unfold setSt; simp

theorem setSt_nil {k : Nat} {st : St} : setSt [] k st = [] := by
  unfold setSt; simp

theorem locOf_setSt {ts : List Task} {k i : Nat} {st : St} :
    locOf (setSt ts k st) i = locOf ts i := by
  induction ts generalizing k i with
  | nil => rw [setSt_nil]
  | cons a ts ih =>
    cases k with
    | zero =>
      rw [setSt_cons_zero]
      cases i with
      | zero => rfl
      | succ i => rfl
    | succ k =>
      rw [setSt_cons_succ]
      cases i with
      | zero => rfl
      | succ i => rw [locOf_cons, locOf_cons, ih]

theorem total_setSt {ts : List Task} {k : Nat} {st : St} : total (setSt ts k st) = total ts := by
  rw [← locOf_length, ← locOf_length, setSt_length, locOf_setSt]

theorem cell_in {ts : List Task} {k j : Nat} {t : Task} (h : ts[k]? = some t) (hj : j < t.len) :
    cell ts (locOf ts k + j) = t.word j := by
  induction ts generalizing k with
  | nil => simp at h
  | cons a ts ih =>
    cases k with
    | zero => simp at h; subst h; rw [locOf_zero, Nat.zero_add, cell, if_pos hj]
    | succ k =>
      rw [locOf_cons, cell, if_neg (by omega)]
      have : a.len + locOf ts k + j - a.len = locOf ts k + j := by omega
      rw [this]
      exact ih (by simpa using h)

theorem cell_beyond_total {ts : List Task} {p : Nat} (h : total ts ≤ p) : cell ts p = 0 := by
  induction ts generalizing p with
  | nil => rfl
  | cons a ts ih =>
    unfold total at h
    rw [cell, if_neg (by omega)]
    exact ih (by omega)

theorem task_at {ts : List Task} {p : Nat} (h : p < total ts) :
    ∃ k t j, ts[k]? = some t ∧ j < t.len ∧ p = locOf ts k + j := by
  induction ts generalizing p with
  | nil => simp [total] at h
  | cons a ts ih =>
    by_cases hp : p < a.len
    · exact ⟨0, a, p, rfl, hp, by rw [locOf_zero]; omega⟩
    · unfold total at h
      obtain ⟨k, t, j, h1, h2, h3⟩ := ih (p := p - a.len) (by omega)
      exact ⟨k + 1, t, j, by simpa using h1, h2, by rw [locOf_cons]; omega⟩

theorem cell_setSt {ts : List Task} {k p : Nat} {t : Task} {st : St} (h : ts[k]? = some t) :
    cell (setSt ts k st) p =
      if locOf ts k ≤ p ∧ p < locOf ts k + t.len then ({ t with st := st } : Task).word (p - locOf ts k)
      else cell ts p := by
  induction ts generalizing k p with
  | nil => simp at h
  | cons a ts ih =>
    cases k with
    | zero =>
      simp at h
      subst h
      rw [setSt_cons_zero, locOf_zero, cell, cell]
      have hl : ({ a with st := st } : Task).len = a.len := rfl
      rw [hl]
      by_cases hp : p < a.len
      · rw [if_pos hp, if_pos (by omega), Nat.sub_zero]
      · rw [if_neg hp, if_neg (by omega), if_neg hp]
    | succ k =>
      rw [setSt_cons_succ, locOf_cons, cell, cell]
      by_cases hp : p < a.len
      · rw [if_pos hp, if_neg (by omega), if_pos hp]
      · rw [if_neg hp, if_neg hp, ih (by simpa using h)]
        by_cases hq : locOf ts k ≤ p - a.len ∧ p - a.len < locOf ts k + t.len
        · rw [if_pos hq, if_pos (by omega)]
          congr 1
          omega
        · rw [if_neg hq, if_neg (by omega)]

theorem cell_append_reserved {ts : List Task} {p : Nat} {data : List Word} :
    cell (ts ++ [⟨data, .reserved⟩]) p = cell ts p := by
  induction ts generalizing p with
  | nil => simp only [List.nil_append, cell, Task.word]; split <;> rfl
  | cons a ts ih => simp only [List.cons_append, cell, ih]

theorem doneCount_eq {ts : List Task} {ne : Nat} (hle : ne ≤ ts.length)
    (h : ∀ k t, ts[k]? = some t → (k < ne ↔ t.st = .done)) : doneCount ts = ne := by
  unfold doneCount
  induction ts generalizing ne with
  | nil => simp at hle; subst hle; rfl
  | cons a ts ih =>
    cases ne with
    | zero =>
      rw [List.countP_eq_zero]
      intro t ht
      obtain ⟨k, hk⟩ := List.mem_iff_getElem?.1 ht
      have := h k t hk
      simp at this ⊢
      exact this
    | succ ne =>
      have h0 : a.st = .done := (h 0 a rfl).1 (by omega)
      rw [List.countP_cons_of_pos (by simp [h0])]
      rw [ih (ne := ne) (by simpa using hle)]
      intro k t hk
      have := h (k + 1) t (by simpa using hk)
      rw [← this]
      omega

end Verif.S3Queue
