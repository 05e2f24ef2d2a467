import Verif.S3Queue.Lemmas

namespace Verif.S3Queue

/-- `ne` tasks are passed by `erasedLocation`. -/
structure Inv (N : Nat) (s : S) (ne : Nat) : Prop where
  ins : s.q.ins = total s.tasks
  npLe : s.picks.length ≤ s.tasks.length
  neLe : ne ≤ s.picks.length
  pick : s.q.pick = locOf s.tasks s.picks.length
  er : s.q.er = locOf s.tasks ne
  done : ∀ (k : Nat) (t : Task), s.tasks[k]? = some t → (k < ne ↔ t.st = .done)
  taken : ∀ (k : Nat) (t : Task), s.tasks[k]? = some t →
    (k < s.picks.length ↔ t.st = .picked ∨ t.st = .flagged ∨ t.st = .done)
  room : ∀ (k : Nat) (t : Task), s.tasks[k]? = some t → t.st ≠ .reserved → locOf s.tasks k + t.len ≤ s.q.er + N
  sizes : ∀ (k : Nat) (t : Task), s.tasks[k]? = some t → 0 < t.data.length ∧ 4 * t.len < FLAG
  mem : ∀ p, s.q.er ≤ p → p < s.q.er + N → s.q.mem (p % N) = cell s.tasks p
  pcs : ∀ pc ∈ s.pcs, ∃ (k : Nat) (t : Task), s.tasks[k]? = some t ∧ pc = .cas (locOf s.tasks k) t.len ∧
    (t.st = .flagged ∨ t.st = .done)
  pend : ∀ t : Task, s.tasks[ne]? = some t → t.st = .flagged → .cas (locOf s.tasks ne) t.len ∈ s.pcs
  picks : s.picks = (List.range s.picks.length).map (locOf s.tasks)

/-- Operations covered: bodies non-empty and small enough not to reach the flag bit
(a task is at most a few kilobytes); no step between the compare-and-swap and the
zeroing of the length; `get` only for a task in one piece. -/
def Op.ok (N : Nat) (s : S) : Op → Prop
  | .reserve data => 0 < data.length ∧ 4 * (data.length + 1) < FLAG
  | .get k _ => s.tasks[k]?.all (fun t => decide (locOf s.tasks k % N + t.len ≤ N)) = true
  | .casOnly _ => False
  | .zeroOnly _ => False
  | _ => True

def okRun (N : Nat) (s : S) : List Op → Prop
  | [] => True
  | o :: os => o.ok N s ∧ okRun N (s.step N o) os

section
variable {N ne : Nat} {s : S}

theorem Inv.init : Inv N S.init 0 := by
  constructor <;> simp [S.init, Q.init, total, locOf, cell]

theorem Inv.cell_beyond (h : Inv N s ne) {p : Nat} (hp : s.q.er + N ≤ p) : cell s.tasks p = 0 := by
  by_cases ht : p < total s.tasks
  · obtain ⟨k, t, j, h1, h2, h3⟩ := task_at ht
    rw [h3, cell_in h1 h2]
    by_cases hr : t.st = .reserved
    · unfold Task.word; rw [hr]
    · have := h.room k t h1 hr; omega
  · exact cell_beyond_total (by omega)

theorem Inv.reserve (h : Inv N s ne) (data : List Word) (hd : (Op.reserve data).ok N s) :
    Inv N (s.step N (.reserve data)) ne := by
  have hnp := h.npLe
  have hne := h.neLe
  have hget : ∀ (k : Nat) (t : Task), (s.tasks ++ [(⟨data, .reserved⟩ : Task)])[k]? = some t →
      s.tasks[k]? = some t ∨ (k = s.tasks.length ∧ t = ⟨data, .reserved⟩) := by
    intro k t hk
    by_cases hlt : k < s.tasks.length
    · rw [List.getElem?_append_left hlt] at hk; exact .inl hk
    · rw [List.getElem?_append_right (by omega)] at hk
      by_cases he : k = s.tasks.length
      · subst he; simp at hk; exact .inr ⟨rfl, hk.symm⟩
      · rw [List.getElem?_eq_none (by simp; omega)] at hk; cases hk
  have hlen : ∀ {k t}, s.tasks[k]? = some t → k < s.tasks.length := by
    intro k t hk; exact (List.getElem?_eq_some_iff.1 hk).1
  show Inv N
    { s with q := s.q.reserve data, tasks := s.tasks ++ [⟨data, .reserved⟩],
             puts := s.puts ++ [(s.q.ins, data)] } ne
  constructor <;> (try dsimp only [Q.reserve])
  · rw [h.ins, total_append]; rfl
  · simp; omega
  · exact hne
  · rw [locOf_append hnp]; exact h.pick
  · rw [locOf_append (by omega)]; exact h.er
  · intro k t hk
    rcases hget k t hk with hk | ⟨hk, ht⟩
    · exact h.done k t hk
    · subst ht; simp; omega
  · intro k t hk
    rcases hget k t hk with hk | ⟨hk, ht⟩
    · exact h.taken k t hk
    · subst ht; simp; omega
  · intro k t hk hr
    rcases hget k t hk with hk | ⟨hk, ht⟩
    · rw [locOf_append (by have := hlen hk; omega)]; exact h.room k t hk hr
    · subst ht; exact absurd rfl hr
  · intro k t hk
    rcases hget k t hk with hk | ⟨hk, ht⟩
    · exact h.sizes k t hk
    · subst ht; exact hd
  · intro p hp1 hp2
    rw [cell_append_reserved]; exact h.mem p hp1 hp2
  · intro pc hpc
    obtain ⟨k, t, h1, h2, h3⟩ := h.pcs pc hpc
    refine ⟨k, t, ?_, ?_, h3⟩
    · rw [List.getElem?_append_left (hlen h1)]; exact h1
    · rw [locOf_append (by have := hlen h1; omega)]; exact h2
  · intro t ht hf
    rcases hget _ t ht with hk | ⟨_, hk⟩
    · rw [locOf_append (by have := hlen hk; omega)]; exact h.pend t hk hf
    · subst hk; cases hf
  · conv => lhs; rw [h.picks]
    apply List.map_congr_left
    intro i hi
    rw [List.mem_range] at hi
    rw [locOf_append (by omega)]

/-- Changing the state of task `k` that keeps it on the same side of both counters. -/
theorem Inv.change (h : Inv N s ne) {k : Nat} {t : Task} {st : St} {mem : Nat → Word}
    {pcs : List Pc} (hk : s.tasks[k]? = some t)
    (hd : st ≠ .done) (htd : ¬ k < ne)
    (htk : k < s.picks.length ↔ st = .picked ∨ st = .flagged)
    (hroom : locOf s.tasks k + t.len ≤ s.q.er + N)
    (hmem : ∀ p, s.q.er ≤ p → p < s.q.er + N → mem (p % N) = cell (setSt s.tasks k st) p)
    (hpcs : ∀ pc ∈ pcs, pc ∈ s.pcs ∨ (pc = .cas (locOf s.tasks k) t.len ∧ st = .flagged))
    (hsub : ∀ pc ∈ s.pcs, pc ∈ pcs)
    (hold : t.st ≠ .flagged)
    (hpend : k = ne → st = .flagged → .cas (locOf s.tasks k) t.len ∈ pcs) :
    Inv N { s with q := { s.q with mem := mem }, tasks := setSt s.tasks k st, pcs := pcs } ne := by
  have hget : ∀ (i : Nat) (u : Task), (setSt s.tasks k st)[i]? = some u →
      (i ≠ k ∧ s.tasks[i]? = some u) ∨ (i = k ∧ u = { t with st := st }) := by
    intro i u hu
    rw [setSt_get] at hu
    by_cases he : k = i
    · subst he
      rw [if_pos rfl, hk] at hu
      simp at hu
      exact .inr ⟨rfl, hu.symm⟩
    · rw [if_neg he] at hu; exact .inl ⟨fun e => he e.symm, hu⟩
  constructor <;> (try dsimp only)
  · rw [total_setSt]; exact h.ins
  · rw [setSt_length]; exact h.npLe
  · exact h.neLe
  · rw [locOf_setSt]; exact h.pick
  · rw [locOf_setSt]; exact h.er
  · intro i u hu
    rcases hget i u hu with ⟨_, hv⟩ | ⟨hi, hv⟩
    · exact h.done i u hv
    · subst hi; subst hv
      exact ⟨fun hc => absurd hc htd, fun hc => absurd hc hd⟩
  · intro i u hu
    rcases hget i u hu with ⟨_, hv⟩ | ⟨hi, hv⟩
    · exact h.taken i u hv
    · subst hi; subst hv
      rw [htk]
      dsimp only
      grind
  · intro i u hu hr
    rw [locOf_setSt]
    rcases hget i u hu with ⟨_, hv⟩ | ⟨hi, hv⟩
    · exact h.room i u hv hr
    · subst hi; subst hv; exact hroom
  · intro i u hu
    rcases hget i u hu with ⟨_, hv⟩ | ⟨hi, hv⟩
    · exact h.sizes i u hv
    · subst hi; subst hv; exact h.sizes _ t hk
  · exact hmem
  · intro pc hpc
    rcases hpcs pc hpc with hpc | ⟨hpc, hst⟩
    · obtain ⟨i, u, h1, h2, h3⟩ := h.pcs pc hpc
      have hik : i ≠ k := by
        intro he; subst he
        rw [hk] at h1
        cases h1
        rcases h3 with h3 | h3
        · exact hold h3
        · exact htd ((h.done i t hk).2 h3)
      refine ⟨i, u, ?_, ?_, h3⟩
      · rw [setSt_get, if_neg (fun e => hik e.symm)]; exact h1
      · rw [locOf_setSt]; exact h2
    · refine ⟨k, { t with st := st }, ?_, ?_, .inl hst⟩
      · rw [setSt_get, if_pos rfl, hk]; rfl
      · rw [locOf_setSt]; exact hpc
  · intro u hu hf
    rw [locOf_setSt]
    rcases hget _ u hu with ⟨_, hv⟩ | ⟨hi, hv⟩
    · exact hsub _ (h.pend u hv hf)
    · subst hv
      rw [hi]
      exact hpend hi.symm hf
  · conv => lhs; rw [h.picks]
    apply List.map_congr_left
    intro i hi
    rw [locOf_setSt]

theorem Inv.fill (h : Inv N s ne) (k : Nat) : Inv N (s.step N (.fill k)) ne := by
  unfold S.step
  dsimp only
  split
  · rename_i data hk
    by_cases hr : s.q.room N (locOf s.tasks k) data
    · rw [if_pos hr]
      have hnp : ¬ k < s.picks.length := by
        intro hc
        have := (h.taken k _ hk).1 hc
        simp at this
      have hne := h.neLe
      have hle : s.q.er ≤ locOf s.tasks k := by rw [h.er]; exact locOf_mono (by omega)
      unfold Q.room at hr
      refine h.change (t := ⟨data, .reserved⟩) hk (by simp) (by omega) (by simpa using hnp)
        (by unfold Task.len; dsimp only; omega) ?_ (fun pc hpc => .inl hpc) (fun pc hpc => hpc)
        (by simp) (by simp)
      intro p hp1 hp2
      rw [ring_write hle (by omega) hp1 hp2, cell_setSt hk, h.mem p hp1 hp2]
      rfl
    · rw [if_neg hr]; exact h
  · exact h

theorem Inv.word_at (h : Inv N s ne) {k : Nat} {t : Task} (hk : s.tasks[k]? = some t)
    (hne : ne ≤ k) {j : Nat} (hj : j < t.len) (hw : locOf s.tasks k + j < s.q.er + N) :
    s.q.mem ((locOf s.tasks k + j) % N) = t.word j := by
  have hle : s.q.er ≤ locOf s.tasks k := by rw [h.er]; exact locOf_mono hne
  rw [h.mem _ (by omega) hw, cell_in hk hj]

theorem Inv.picked_ge (h : Inv N s ne) {k : Nat} {t : Task} (hk : s.tasks[k]? = some t)
    (hp : t.st ≠ .done) : ne ≤ k := by
  apply Decidable.byContradiction
  intro hc
  exact hp ((h.done k t hk).1 (by omega))

theorem Inv.picked_header (h : Inv N s ne) {k : Nat} {t : Task} (hk : s.tasks[k]? = some t)
    (hp : t.st = .picked) : s.q.mem (locOf s.tasks k % N) = 4 * t.len := by
  have hr := h.room k t hk (by rw [hp]; simp)
  have hl : 0 < t.len := by unfold Task.len; omega
  have := h.word_at hk (h.picked_ge hk (by rw [hp]; simp)) (j := 0) hl (by omega)
  rw [Nat.add_zero] at this
  rw [this]
  unfold Task.word; rw [hp]; rfl

theorem Inv.erase (h : Inv N s ne) (k : Nat) : Inv N (s.step N (.erase k)) ne := by
  unfold S.step
  dsimp only
  split
  · rename_i data hk
    have hhdr := h.picked_header hk rfl
    have hge := h.picked_ge hk (by simp)
    have hr := h.room k _ hk (by simp)
    have hle : s.q.er ≤ locOf s.tasks k := by rw [h.er]; exact locOf_mono hge
    have hlen : (⟨data, .picked⟩ : Task).len = data.length + 1 := rfl
    rw [hlen] at hr hhdr
    unfold Q.eraseBody
    dsimp only
    rw [hhdr]
    have hdiv : 4 * (data.length + 1) / 4 = data.length + 1 := by omega
    rw [hdiv]
    refine h.change hk (by simp) (by omega) (by simpa using (h.taken k _ hk).2 (by simp))
      (by omega) ?_ ?_ (fun pc hpc => by simp [hpc]) (by simp) (fun _ _ => by simp [hlen])
    · intro p hp1 hp2
      have hrep : (List.replicate (data.length + 1 - 1) (0 : Word)).length = data.length := by simp
      rw [ring_write hle (by rw [hrep]; omega) hp1 hp2, cell_setSt hk, h.mem p hp1 hp2, hrep, hlen]
      by_cases hin : locOf s.tasks k ≤ p ∧ p < locOf s.tasks k + (data.length + 1)
      · rw [if_pos hin, if_pos hin]
        unfold Task.word
        dsimp only
        by_cases hz : p - locOf s.tasks k = 0
        · rw [hz, if_pos rfl, List.getD_cons_zero]; simp only [Task.len]
        · rw [if_neg hz]
          obtain ⟨j, hj⟩ : ∃ j, p - locOf s.tasks k = j + 1 := ⟨p - locOf s.tasks k - 1, by omega⟩
          rw [hj]
          simp only [List.getD_cons_succ]
          rw [List.getD_eq_getElem?_getD, List.getElem?_replicate]
          split <;> rfl
      · rw [if_neg hin, if_neg hin]
    · intro pc hpc
      rcases List.mem_append.1 hpc with hpc | hpc
      · exact .inl hpc
      · exact .inr ⟨List.mem_singleton.1 hpc, rfl⟩
  · exact h

/-- What `s3_queue_try_pick_task` finds. -/
theorem Inv.tryPick_spec (h : Inv N s ne) :
    (∃ t, s.tasks[s.picks.length]? = some t ∧ t.st = .filled ∧
      s.q.tryPick N = (some s.q.pick, { s.q with pick := s.q.pick + t.len })) ∨
    ((∀ t, s.tasks[s.picks.length]? = some t → t.st ≠ .filled) ∧ s.q.tryPick N = (none, s.q)) := by
  have hnp := h.npLe
  unfold Q.tryPick
  by_cases hge : s.q.pick ≥ s.q.ins
  · rw [if_pos hge]
    right
    refine ⟨?_, rfl⟩
    intro t ht
    rw [h.pick, h.ins, ← locOf_length] at hge
    have hlt := (List.getElem?_eq_some_iff.1 ht).1
    have := locOf_strict hlt (Nat.le_refl _)
    omega
  · rw [if_neg hge]
    have hlt : s.picks.length < s.tasks.length := by
      apply Decidable.byContradiction
      intro hc
      have : s.picks.length = s.tasks.length := by omega
      rw [h.pick, h.ins, this, locOf_length] at hge
      omega
    obtain ⟨t, ht⟩ : ∃ t, s.tasks[s.picks.length]? = some t := ⟨_, List.getElem?_eq_getElem hlt⟩
    have hst : t.st = .reserved ∨ t.st = .filled := by
      have h1 := mt (h.taken _ t ht).2 (Nat.lt_irrefl _)
      cases hs : t.st <;> simp [hs] at h1 ⊢
    have hsz := h.sizes _ t ht
    have hlen : t.len = t.data.length + 1 := rfl
    by_cases hw : s.q.pick + 1 ≥ s.q.er + N
    · rw [if_pos hw]
      right
      refine ⟨?_, rfl⟩
      intro u hu hf
      rw [ht] at hu
      cases hu
      have := h.room _ t ht (by rw [hf]; simp)
      rw [← h.pick] at this
      omega
    · rw [if_neg hw]
      have hword := h.word_at ht h.neLe (j := 0) (by omega) (by rw [← h.pick]; omega)
      rw [Nat.add_zero, ← h.pick] at hword
      dsimp only
      rw [hword]
      rcases hst with hs | hs
      · right
        refine ⟨fun u hu hf => ?_, ?_⟩
        · rw [ht] at hu; cases hu; rw [hs] at hf; cases hf
        · unfold Task.word; rw [hs]; rfl
      · left
        refine ⟨t, ht, hs, ?_⟩
        have hw0 : t.word 0 = 4 * t.len := by unfold Task.word; rw [hs]; rfl
        have h0 : ¬ 4 * t.len = 0 := by omega
        have h4 : 4 * t.len / 4 = t.len := by omega
        rw [hw0, if_neg h0, h4]

theorem Inv.pickStep (h : Inv N s ne) : Inv N (s.step N .pick) ne := by
  unfold S.step
  dsimp only
  have hne := h.neLe
  rcases h.tryPick_spec with ⟨t, ht, hs, he⟩ | ⟨_, he⟩
  · rw [he]
    dsimp only
    have hget : ∀ (i : Nat) (u : Task), (setSt s.tasks s.picks.length .picked)[i]? = some u →
        (i ≠ s.picks.length ∧ s.tasks[i]? = some u) ∨
          (i = s.picks.length ∧ u = { t with st := .picked }) := by
      intro i u hu
      rw [setSt_get] at hu
      by_cases he : s.picks.length = i
      · subst he
        rw [if_pos rfl, ht] at hu
        simp at hu
        exact .inr ⟨rfl, hu.symm⟩
      · rw [if_neg he] at hu; exact .inl ⟨fun e => he e.symm, hu⟩
    have hlt := (List.getElem?_eq_some_iff.1 ht).1
    constructor <;> (try dsimp only)
    · rw [total_setSt]; exact h.ins
    · rw [setSt_length, List.length_append]; exact hlt
    · rw [List.length_append]; omega
    · rw [locOf_setSt, List.length_append, List.length_singleton, locOf_succ ht, h.pick]
    · rw [locOf_setSt]; exact h.er
    · intro i u hu
      rcases hget i u hu with ⟨_, hv⟩ | ⟨hi, hv⟩
      · exact h.done i u hv
      · subst hv; simp; omega
    · intro i u hu
      rw [List.length_append, List.length_singleton]
      rcases hget i u hu with ⟨hi, hv⟩ | ⟨hi, hv⟩
      · rw [← h.taken i u hv]; omega
      · subst hv; simp; omega
    · intro i u hu hr
      rw [locOf_setSt]
      rcases hget i u hu with ⟨_, hv⟩ | ⟨hi, hv⟩
      · exact h.room i u hv hr
      · subst hi; subst hv; exact h.room _ t ht (by rw [hs]; simp)
    · intro i u hu
      rcases hget i u hu with ⟨_, hv⟩ | ⟨hi, hv⟩
      · exact h.sizes i u hv
      · subst hi; subst hv; exact h.sizes _ t ht
    · intro p hp1 hp2
      rw [h.mem p hp1 hp2, cell_setSt ht]
      split
      · rename_i hin
        have he : p = locOf s.tasks s.picks.length + (p - locOf s.tasks s.picks.length) := by omega
        conv => lhs; rw [he]
        rw [cell_in ht (by omega)]
        unfold Task.word
        rw [hs]
        rfl
      · rfl
    · intro pc hpc
      obtain ⟨i, u, h1, h2, h3⟩ := h.pcs pc hpc
      have hi : i ≠ s.picks.length := by
        intro hc
        subst hc
        rw [ht] at h1
        cases h1
        rw [hs] at h3
        simp at h3
      refine ⟨i, u, ?_, ?_, h3⟩
      · rw [setSt_get, if_neg (fun e => hi e.symm)]; exact h1
      · rw [locOf_setSt]; exact h2
    · intro u hu hf
      rw [locOf_setSt]
      rcases hget _ u hu with ⟨_, hv⟩ | ⟨hi, hv⟩
      · exact h.pend u hv hf
      · subst hv; cases hf
    · rw [List.length_append, List.length_singleton, List.range_succ, List.map_append, List.map_singleton,
        locOf_setSt, ← h.pick]
      congr 1
      conv => lhs; rw [h.picks]
      apply List.map_congr_left
      intro i hi
      rw [locOf_setSt]
  · rw [he]
    exact h

/-- A task in one piece is returned intact, and nothing is changed. -/
theorem Inv.get_spec (h : Inv N s ne) {k : Nat} {t : Task} (hk : s.tasks[k]? = some t)
    (hp : t.st = .picked) (hs : locOf s.tasks k % N + t.len ≤ N) (g : List Word) :
    s.q.get N (locOf s.tasks k) g = (t.data, s.q) := by
  have hhdr := h.picked_header hk hp
  have hge := h.picked_ge hk (by rw [hp]; simp)
  have hr := h.room k t hk (by rw [hp]; simp)
  have hlen : t.len = t.data.length + 1 := rfl
  unfold Q.get
  dsimp only
  rw [hhdr]
  have hdiv : 4 * t.len / 4 = t.data.length + 1 := by omega
  rw [hdiv, if_pos ((straddle_iff (by omega)).2 (by omega))]
  congr 1
  unfold slice
  apply List.ext_getElem?
  intro i
  by_cases hi : i < t.data.length
  · have hw := h.word_at hk hge (j := i + 1) (by omega) (by omega)
    have hm := mod_off (N := N) (loc := locOf s.tasks k) (p := locOf s.tasks k + (i + 1)) (by omega)
      (by omega)
    rw [if_pos (by omega)] at hm
    have he : locOf s.tasks k % N + 1 + i = (locOf s.tasks k + (i + 1)) % N := by omega
    rw [List.getElem?_map, List.getElem?_range (by omega)]
    simp only [Option.map_some]
    rw [he, hw]
    unfold Task.word
    rw [hp]
    simp only [List.getD_cons_succ]
    rw [List.getD_eq_getElem?_getD, List.getElem?_eq_getElem hi]
    rfl
  · rw [List.getElem?_eq_none (by simp; omega), List.getElem?_eq_none (by omega)]

theorem Inv.gets_irrel (h : Inv N s ne) (g : List (Nat × List Word)) :
    Inv N { s with gets := g } ne :=
  ⟨h.ins, h.npLe, h.neLe, h.pick, h.er, h.done, h.taken, h.room, h.sizes, h.mem, h.pcs, h.pend,
    h.picks⟩

theorem Inv.getStep (h : Inv N s ne) (k : Nat) (g : List Word) (hok : (Op.get k g).ok N s) :
    Inv N (s.step N (.get k g)) ne := by
  unfold S.step
  dsimp only
  split
  · rename_i data hk
    rw [h.get_spec hk rfl (by simpa [Op.ok, hk] using hok)]
    exact h.gets_irrel _
  · exact h

theorem mem_eraseIdx_ne {α : Type} {l : List α} {i : Nat} {x y : α} (hi : l[i]? = some y)
    (hx : x ∈ l) (hne : x ≠ y) : x ∈ l.eraseIdx i := by
  rw [List.mem_eraseIdx_iff_getElem?]
  obtain ⟨j, hj⟩ := List.mem_iff_getElem?.1 hx
  refine ⟨j, ?_, hj⟩
  intro hc
  subst hc
  rw [hi] at hj
  cases hj
  exact hne rfl

theorem Inv.advance (h : Inv N s ne) (i : Nat) : ∃ ne', Inv N (s.step N (.advance i)) ne' := by
  unfold S.step
  dsimp only
  split
  · rename_i loc tot hi
    have hmem := List.mem_of_getElem? hi
    obtain ⟨k, t, hk, hpc, hst⟩ := h.pcs _ hmem
    simp only [Pc.cas.injEq] at hpc
    obtain ⟨hl, htot⟩ := hpc
    have hklt := (List.getElem?_eq_some_iff.1 hk).1
    unfold Q.cas
    by_cases her : s.q.er = loc
    · -- the task is the first unerased one
      rw [if_pos her]
      have hnele : ne ≤ s.tasks.length := Nat.le_trans h.neLe h.npLe
      have hkne : k = ne := by
        apply locOf_inj (by omega) hnele
        rw [← hl, ← h.er, her]
      subst hkne
      have hfl : t.st = .flagged := by
        rcases hst with hst | hst
        · exact hst
        · have := (h.done k t hk).2 hst; omega
      have hknp : k < s.picks.length := (h.taken k t hk).2 (.inr (.inl hfl))
      have hdc : doneCount s.tasks = k := doneCount_eq hnele h.done
      have hroom := h.room k t hk (by rw [hfl]; simp)
      have hlen : t.len = t.data.length + 1 := rfl
      have hsucc := locOf_succ hk
      have hN : 0 < N := by rw [h.er] at hroom; omega
      subst htot
      rw [hdc]
      dsimp only
      have hget : ∀ (j : Nat) (u : Task), (setSt s.tasks k .done)[j]? = some u →
          (j ≠ k ∧ s.tasks[j]? = some u) ∨ (j = k ∧ u = { t with st := .done }) := by
        intro j u hu
        rw [setSt_get] at hu
        by_cases he : k = j
        · subst he
          rw [if_pos rfl, hk] at hu
          simp at hu
          exact .inr ⟨rfl, hu.symm⟩
        · rw [if_neg he] at hu; exact .inl ⟨fun e => he e.symm, hu⟩
      -- contents of the ring after the zeroing
      have hring : ∀ p, loc + t.len ≤ p → p < loc + t.len + N →
          set s.q.mem (loc % N) 0 (p % N) = cell (setSt s.tasks k .done) p := by
        intro p hp1 hp2
        have hc : cell (setSt s.tasks k .done) p = cell s.tasks p := by
          rw [cell_setSt hk, if_neg (by omega)]
        rw [hc]
        unfold set
        by_cases hw : p < loc + N
        · rw [if_neg (fun e => mod_ne (N := N) (a := loc) (b := p) (by omega) hw e.symm)]
          exact h.mem p (by omega) (by omega)
        · rw [h.cell_beyond (by omega)]
          have hm : p % N = (p - N) % N := by
            have : p = p - N + N := by omega
            conv => lhs; rw [this, add_mod_self']
          by_cases hz : p - N = loc
          · rw [hm, hz, if_pos rfl]
          · rw [hm, if_neg (fun e => mod_ne (N := N) (a := loc) (b := p - N) (by omega) (by omega) e.symm)]
            rw [h.mem (p - N) (by omega) (by omega)]
            have he : p - N = locOf s.tasks k + (p - N - loc) := by omega
            rw [he, cell_in hk (by omega)]
            unfold Task.word
            rw [hfl]
            dsimp only
            rw [if_neg (by omega)]
      have base : ∀ pcs : List Pc,
          (∀ pc ∈ pcs, pc ∈ s.pcs ∨ ∃ u, s.tasks[k + 1]? = some u ∧ u.st = .flagged ∧
            pc = .cas (locOf s.tasks (k + 1)) u.len) →
          (∀ u, s.tasks[k + 1]? = some u → u.st = .flagged →
            .cas (locOf s.tasks (k + 1)) u.len ∈ pcs) →
          Inv N { s with q := { s.q with mem := set s.q.mem (loc % N) 0, er := loc + t.len },
                         tasks := setSt s.tasks k .done, pcs := pcs } (k + 1) := by
        intro pcs hp1 hp2
        constructor <;> (try dsimp only)
        · rw [total_setSt]; exact h.ins
        · rw [setSt_length]; exact h.npLe
        · exact hknp
        · rw [locOf_setSt]; exact h.pick
        · rw [locOf_setSt, hsucc, hl]
        · intro j u hu
          rcases hget j u hu with ⟨hj, hv⟩ | ⟨hj, hv⟩
          · rw [← h.done j u hv]; omega
          · subst hv; simp; omega
        · intro j u hu
          rcases hget j u hu with ⟨hj, hv⟩ | ⟨hj, hv⟩
          · exact h.taken j u hv
          · subst hv; simp; omega
        · intro j u hu hr
          rw [locOf_setSt]
          rcases hget j u hu with ⟨hj, hv⟩ | ⟨hj, hv⟩
          · have := h.room j u hv hr; omega
          · subst hj; subst hv
            have : ({ t with st := .done } : Task).len = t.len := rfl
            omega
        · intro j u hu
          rcases hget j u hu with ⟨hj, hv⟩ | ⟨hj, hv⟩
          · exact h.sizes j u hv
          · subst hj; subst hv; exact h.sizes _ t hk
        · exact hring
        · intro pc hpc
          rcases hp1 pc hpc with hpc | ⟨u, hu, huf, hpc⟩
          · obtain ⟨j, u, h1, h2, h3⟩ := h.pcs pc hpc
            by_cases hj : j = k
            · subst hj
              rw [hk] at h1
              cases h1
              refine ⟨j, { t with st := .done }, ?_, ?_, .inr rfl⟩
              · rw [setSt_get, if_pos rfl, hk]; rfl
              · rw [locOf_setSt]; exact h2
            · refine ⟨j, u, ?_, ?_, h3⟩
              · rw [setSt_get, if_neg (fun e => hj e.symm)]; exact h1
              · rw [locOf_setSt]; exact h2
          · refine ⟨k + 1, u, ?_, ?_, .inl huf⟩
            · rw [setSt_get, if_neg (by omega)]; exact hu
            · rw [locOf_setSt]; exact hpc
        · intro u hu hf
          rw [locOf_setSt]
          rcases hget _ u hu with ⟨hj, hv⟩ | ⟨hj, hv⟩
          · exact hp2 u hv hf
          · omega
        · conv => lhs; rw [h.picks]
          apply List.map_congr_left
          intro j hj
          rw [locOf_setSt]
      unfold S.zero Q.zero
      dsimp only
      have hnext : set s.q.mem (loc % N) 0 ((loc + t.len) % N) =
          cell (setSt s.tasks k .done) (loc + t.len) := hring _ (by omega) (by omega)
      have hsl : loc + t.len = locOf s.tasks (k + 1) := by rw [hsucc, hl]
      simp only [hnext]
      cases hn : s.tasks[k + 1]? with
      | none =>
        have hz : cell (setSt s.tasks k .done) (loc + t.len) = 0 := by
          apply cell_beyond_total
          rw [total_setSt, ← locOf_length]
          have : s.tasks.length ≤ k + 1 := by simpa using hn
          rw [hsl]
          exact locOf_mono this
        rw [hz, if_neg (by decide)]
        refine ⟨k + 1, base _ ?_ ?_⟩
        · intro pc hpc; exact .inl (List.mem_of_mem_eraseIdx hpc)
        · intro u hu; rw [hn] at hu; cases hu
      | some u =>
        have hn' : (setSt s.tasks k .done)[k + 1]? = some u := by
          rw [setSt_get, if_neg (by omega)]; exact hn
        have hul : 0 < u.len := by unfold Task.len; omega
        have hz : cell (setSt s.tasks k .done) (loc + t.len) = u.word 0 := by
          have := cell_in hn' hul
          rw [locOf_setSt, Nat.add_zero, ← hsl] at this
          exact this
        rw [hz]
        have hsz := (h.sizes _ u hn).2
        by_cases huf : u.st = .flagged
        · have hw : u.word 0 = 4 * u.len + FLAG := by unfold Task.word; rw [huf]; rfl
          rw [hw, if_pos (by omega)]
          have hd : (4 * u.len + FLAG - FLAG) / 4 = u.len := by omega
          rw [hd]
          refine ⟨k + 1, base _ ?_ ?_⟩
          · intro pc hpc
            rcases List.mem_or_eq_of_mem_set hpc with hpc | hpc
            · exact .inl hpc
            · exact .inr ⟨u, hn, huf, by rw [hpc, hsl]⟩
          · intro v hv _
            rw [hn] at hv
            cases hv
            rw [← hsl]
            exact List.mem_set (List.getElem?_eq_some_iff.1 hi).1 _
        · have hw : u.word 0 < FLAG := by
            have hF : 0 < FLAG := by decide
            unfold Task.word
            cases hs : u.st with
            | reserved => exact hF
            | filled => exact hsz
            | picked => exact hsz
            | flagged => exact absurd hs huf
            | done => exact hF
          rw [if_neg (Nat.not_le.2 hw)]
          refine ⟨k + 1, base _ ?_ ?_⟩
          · intro pc hpc; exact .inl (List.mem_of_mem_eraseIdx hpc)
          · intro v hv hvf
            rw [hn] at hv
            cases hv
            exact absurd hvf huf
    · rw [if_neg her]
      dsimp only
      refine ⟨ne, ?_⟩
      constructor
      · exact h.ins
      · exact h.npLe
      · exact h.neLe
      · exact h.pick
      · exact h.er
      · exact h.done
      · exact h.taken
      · exact h.room
      · exact h.sizes
      · exact h.mem
      · intro pc hpc; exact h.pcs pc (List.mem_of_mem_eraseIdx hpc)
      · intro u hu hf
        refine mem_eraseIdx_ne hi (h.pend u hu hf) ?_
        intro he
        simp only [Pc.cas.injEq] at he
        rw [h.er] at her
        exact her he.1
      · exact h.picks
  · exact ⟨ne, h⟩

theorem Inv.step (h : Inv N s ne) (o : Op) (hok : o.ok N s) : ∃ ne', Inv N (s.step N o) ne' := by
  cases o with
  | reserve data => exact ⟨ne, h.reserve data hok⟩
  | fill k => exact ⟨ne, h.fill k⟩
  | pick => exact ⟨ne, h.pickStep⟩
  | get k g => exact ⟨ne, h.getStep k g hok⟩
  | erase k => exact ⟨ne, h.erase k⟩
  | advance i => exact h.advance i
  | casOnly i => exact hok.elim
  | zeroOnly i => exact hok.elim

end

theorem run_inv {N ne : Nat} {s : S} (h : Inv N s ne) {ops : List Op} (hok : okRun N s ops) :
    ∃ ne', Inv N (s.run N ops) ne' := by
  unfold S.run
  induction ops generalizing s ne with
  | nil => exact ⟨ne, h⟩
  | cons o os ih =>
    obtain ⟨h1, h2⟩ := hok
    obtain ⟨ne', h'⟩ := h.step o h1
    exact ih h' h2

end Verif.S3Queue
