import Verif.LogicalXid.Lemmas
import Verif.LogicalXid.Spec

/-!
# The invariant of the logical id map
-/

set_option linter.unusedSimpArgs false

namespace Verif.LogicalXid

/-- 1 if `x` is a valid id at position `m`. -/
def one (d m x : Nat) : Nat := if x ≠ 0 ∧ x % d = m then 1 else 0

/-- Number of ids at position `m` a process owns. -/
def cnt (d m : Nat) (pr : Proc) : Nat :=
  (if handedBack pr then 0 else one d m pr.ctx) +
    (pr.stack.map (fun e => one d m e.1)).sum + (pr.saved.map (fun e => one d m e.2)).sum

def total (d m : Nat) (l : List Proc) : Nat := (l.map (cnt d m)).sum

/-- What may follow the acquisition of the current id. -/
def Follow (rest : List Task) : Prop :=
  rest = [] ∨ ∃ n, rest = [.assign n] ∨ rest = [.ensure, .assign n]

/-- Shape of a process by what it is doing. -/
def Shape (items : Nat) (pr : Proc) : Prop :=
  match pr.todo with
  | [] => pr.oxid = false → pr.ctx = 0
  | .scan .ctx i _ :: rest => i < items ∧ pr.oxid = true ∧ pr.ctx = 0 ∧ Follow rest
  | .take .ctx i _ b :: rest =>
    i < items ∧ (∃ k, k < 32 ∧ b = 2 ^ k) ∧ pr.oxid = true ∧ pr.ctx = 0 ∧ Follow rest
  | .scan (.sub _) i _ :: rest => i < items ∧ pr.oxid = true ∧ rest = []
  | .take (.sub _) i _ b :: rest =>
    i < items ∧ (∃ k, k < 32 ∧ b = 2 ^ k) ∧ pr.oxid = true ∧ rest = []
  | .ensure :: rest => pr.oxid = true ∧ ∃ n, rest = [.assign n]
  | .assign _ :: rest => pr.oxid = true ∧ rest = []
  | .releaseSub _ _ :: rest => pr.oxid = true ∧ pr.ctx ≠ 0 ∧ pr.stack ≠ [] ∧ rest = []
  | .recordSub _ :: rest =>
    pr.oxid = true ∧ pr.ctx ≠ 0 ∧ pr.stack ≠ [] ∧ ∃ n, rest = [.restore n]
  | .restore _ :: rest => pr.oxid = true ∧ pr.ctx ≠ 0 ∧ pr.stack ≠ [] ∧ rest = []
  | .releaseAll :: rest =>
    pr.oxid = false ∧ (rest = [] ∨ (rest = [.endAuto] ∧ pr.saved ≠ []))
  | .endAuto :: rest => pr.oxid = false ∧ pr.ctx = 0 ∧ rest = []

/-- A process by itself. -/
structure PInv (items : Nat) (pr : Proc) : Prop where
  shape : Shape items pr
  saved : ∀ e ∈ pr.saved, e.2 ≠ 0 → e.1 = true

structure Inv (items : Nat) (s : St) : Prop where
  len : s.map.length = items
  words : ∀ w ∈ s.map, w < 4294967296
  procs : ∀ pr ∈ s.procs, PInv items pr
  bal : ∀ m, m < items * 32 →
    total (items * 32) m s.procs = if bitOf s.map m then 1 else 0

theorem word_lt {s : St} {items : Nat} (h : Inv items s) (i : Nat) :
    s.map[i]?.getD 0 < 4294967296 := by
  cases e : s.map[i]? with
  | none => simp
  | some w => exact h.words w (List.mem_of_getElem? e)

/-- Counting after one process changed. -/
theorem total_set {d m p : Nat} {l : List Proc} {pr pr' : Proc} (h : l[p]? = some pr) :
    total d m (l.set p pr') + cnt d m pr = total d m l + cnt d m pr' :=
  sum_set' (cnt d m) pr' l p pr h

theorem cnt_le_total {d m p : Nat} : ∀ {l : List Proc} {pr : Proc}, l[p]? = some pr →
    cnt d m pr ≤ total d m l := by
  intro l pr h
  have h1 := total_set (d := d) (m := m) (pr' := ({} : Proc)) h
  have h0 : cnt d m ({} : Proc) = 0 := by
    show (if false then 0 else one d m 0) + 0 + 0 = 0
    simp [one]
  omega

/-- Frame: the map is unchanged and the process owns the same ids. -/
theorem inv_local {items : Nat} {s : St} {p : Nat} {pr pr' : Proc} {w : List (Nat × Nat)}
    (h : Inv items s) (hp : s.procs[p]? = some pr) (hpi : PInv items pr')
    (hc : ∀ m, cnt (items * 32) m pr' = cnt (items * 32) m pr) :
    Inv items ⟨s.map, s.procs.set p pr', w⟩ := by
  refine ⟨h.len, h.words, ?_, ?_⟩
  · intro q hq
    rcases List.mem_or_eq_of_mem_set hq with hq | hq
    · exact h.procs q hq
    · subst hq; exact hpi
  · intro m hm
    have h1 := total_set (d := items * 32) (m := m) (pr' := pr') hp
    have h2 := hc m
    have h3 := h.bal m hm
    show total (items * 32) m (s.procs.set p pr') = _
    have h4 : total (items * 32) m (s.procs.set p pr') = total (items * 32) m s.procs := by
      omega
    rw [h4]; exact h3

/-- The bit of id `x` is cleared and the process owns one id `x` less. -/
theorem inv_clear {items : Nat} {s : St} {p x : Nat} {pr pr' : Proc} {w : List (Nat × Nat)}
    (h : Inv items s) (hi : 0 < items) (hp : s.procs[p]? = some pr) (hpi : PInv items pr')
    (hx : x ≠ 0)
    (hc : ∀ m, cnt (items * 32) m pr = cnt (items * 32) m pr' + one (items * 32) m x) :
    Inv items ⟨clearId s x, s.procs.set p pr', w⟩ := by
  have hl : s.map.length = items := h.len
  refine ⟨by simp [clearId, hl], ?_, ?_, ?_⟩
  · intro q hq
    rcases List.mem_or_eq_of_mem_set hq with hq | hq
    · exact h.words q hq
    · subst hq; exact word_and_lt (word_lt h _)
  · intro q hq
    rcases List.mem_or_eq_of_mem_set hq with hq | hq
    · exact h.procs q hq
    · subst hq; exact hpi
  · intro m hm
    have h1 := total_set (d := items * 32) (m := m) (pr' := pr') hp
    have h2 := hc m
    have h3 := h.bal m hm
    have h5 := cnt_le_total (d := items * 32) (m := m) hp
    show total (items * 32) m (s.procs.set p pr') = if bitOf (clearId s x) m then 1 else 0
    have hb : bitOf (clearId s x) m = if m = x % (items * 32) then false else bitOf s.map m := by
      have := bitOf_clear (map := s.map) (x := x) (by omega) m (by omega)
      rw [hl] at this
      simpa [clearId, St.divider, hl] using this
    rw [hb]
    by_cases e : m = x % (items * 32)
    · rw [if_pos e]
      have : one (items * 32) m x = 1 := by simp [one, hx, e]
      have hle : total (items * 32) m s.procs ≤ 1 := by rw [h3]; split <;> omega
      simp only [Bool.false_eq_true, if_false]
      omega
    · rw [if_neg e]
      have : one (items * 32) m x = 0 := by
        unfold one; rw [if_neg]; intro hh; exact e hh.2.symm
      rw [← h3]; omega

/-- A bit is taken and the process owns one id more. -/
theorem inv_take {items : Nat} {s : St} {p x i k : Nat} {pr pr' : Proc} {w : List (Nat × Nat)}
    (h : Inv items s) (hp : s.procs[p]? = some pr) (hpi : PInv items pr')
    (hi : i < items) (hk : k < 32) (hfree : (s.map[i]?.getD 0).testBit k = false)
    (hx0 : x ≠ 0) (hx : x % (items * 32) = i * 32 + k)
    (hc : ∀ m, cnt (items * 32) m pr' = cnt (items * 32) m pr + one (items * 32) m x) :
    Inv items ⟨s.map.set i ((s.map[i]?.getD 0) ||| 2 ^ k), s.procs.set p pr', w⟩ := by
  have hl : s.map.length = items := h.len
  refine ⟨by simp [hl], ?_, ?_, ?_⟩
  · intro q hq
    rcases List.mem_or_eq_of_mem_set hq with hq | hq
    · exact h.words q hq
    · subst hq; exact word_or_lt (word_lt h _) hk
  · intro q hq
    rcases List.mem_or_eq_of_mem_set hq with hq | hq
    · exact h.procs q hq
    · subst hq; exact hpi
  · intro m hm
    have h1 := total_set (d := items * 32) (m := m) (pr' := pr') hp
    have h2 := hc m
    have h3 := h.bal m hm
    show total (items * 32) m (s.procs.set p pr') =
      if bitOf (s.map.set i ((s.map[i]?.getD 0) ||| 2 ^ k)) m then 1 else 0
    rw [bitOf_take (by omega) hk]
    by_cases e : m = i * 32 + k
    · rw [if_pos e]
      have e1 : one (items * 32) m x = 1 := by simp [one, hx0, e, hx]
      have hb : bitOf s.map m = false := by
        unfold bitOf
        have a1 : m / 32 = i := by omega
        have a2 : m % 32 = k := by omega
        rw [a1, a2]; exact hfree
      rw [hb] at h3
      simp only [Bool.false_eq_true, if_false] at h3
      simp only [if_true]
      omega
    · rw [if_neg e]
      have e1 : one (items * 32) m x = 0 := by
        unfold one; rw [if_neg]; intro hh; exact e (by rw [← hh.2, hx])
      rw [← h3]; omega

theorem one_zero (d m : Nat) : one d m 0 = 0 := by simp [one]

/-! ## Beginning an action -/

theorem beginOxid_inv {items : Nat} {s : St} {p : Nat} {pr : Proc} {rest : List Task}
    (hl : s.map.length = items) (hi : 0 < items)
    (h : PInv items pr) (ht : pr.todo = []) (hr : rest = [] ∨ ∃ n, rest = [.ensure, .assign n]) :
    PInv items (beginOxid s p pr rest) ∧
      ∀ m, cnt (items * 32) m (beginOxid s p pr rest) = cnt (items * 32) m pr := by
  have hs := h.shape
  simp only [Shape, ht] at hs
  have hb : handedBack pr = false := by simp [handedBack, ht]
  unfold beginOxid
  by_cases ho : pr.oxid = true
  · rw [if_pos ho]
    refine ⟨⟨?_, h.saved⟩, ?_⟩
    · rcases hr with rfl | ⟨n, rfl⟩
      · simp [Shape, ho]
      · simp [Shape, ho]
    · intro m
      rcases hr with rfl | ⟨n, rfl⟩ <;> simp [cnt, handedBack, ht]
  · rw [if_neg ho]
    have hc0 : pr.ctx = 0 := hs (by simpa using ho)
    by_cases hsv : pr.saved.isEmpty = true
    · rw [if_pos hsv]
      refine ⟨⟨?_, h.saved⟩, ?_⟩
      · simp only [Shape, startTask]
        refine ⟨?_, trivial, hc0, ?_⟩
        · rw [St.items, hl]; exact Nat.mod_lt _ hi
        · rcases hr with rfl | ⟨n, rfl⟩
          · exact Or.inl rfl
          · exact Or.inr ⟨n, Or.inr rfl⟩
      · intro m
        simp [cnt, handedBack, startTask, ht]
    · rw [if_neg hsv]
      refine ⟨⟨?_, h.saved⟩, ?_⟩
      · rcases hr with rfl | ⟨n, rfl⟩
        · simp [Shape]
        · simp [Shape]
      · intro m
        rcases hr with rfl | ⟨n, rfl⟩ <;> simp [cnt, handedBack, ht, hc0]

theorem pushedBy_stack {pr : Proc} {n : Nat} (h : pushedBy pr n = true) : pr.stack ≠ [] := by
  intro e; simp [pushedBy, e] at h

theorem begin_inv {items : Nat} {s : St} {p : Nat} {pr : Proc} {a : Act}
    (hl : s.map.length = items) (hi : 0 < items)
    (h : PInv items pr) (ht : pr.todo = []) :
    PInv items (begin s p pr a) ∧
      ∀ m, cnt (items * 32) m (begin s p pr a) = cnt (items * 32) m pr := by
  have hs := h.shape
  simp only [Shape, ht] at hs
  have hcase : ∀ (ret : Bool) (n : Nat), ret = true → pr.ctx ≠ 0 → pushedBy pr n = true →
      ∀ hp, PInv items { pr with todo := [.releaseSub n hp] } ∧
        ∀ m, cnt (items * 32) m { pr with todo := [.releaseSub n hp] } =
          cnt (items * 32) m pr := by
    intro ret n _ h2 h3 hp
    refine ⟨⟨?_, h.saved⟩, ?_⟩
    · simp only [Shape]
      refine ⟨?_, h2, pushedBy_stack h3, trivial⟩
      cases ho : pr.oxid with
      | true => rfl
      | false => exact absurd (hs ho) h2
    · intro m; simp [cnt, handedBack, ht]
  cases a with
  | getOxid => exact beginOxid_inv hl hi h ht (Or.inl rfl)
  | subStart n ret =>
    rw [begin]
    by_cases hr : ret = true
    · rw [if_pos hr]; exact beginOxid_inv hl hi h ht (Or.inr ⟨n, rfl⟩)
    · rw [if_neg hr]; exact ⟨h, fun _ => rfl⟩
  | subCommit n ret heap =>
    rw [begin]
    split
    · rename_i hh; exact hcase ret n hh.1 hh.2.1 hh.2.2 heap
    · exact ⟨h, fun _ => rfl⟩
  | subAbort n ret =>
    rw [begin]
    split
    · rename_i hh; exact hcase ret n hh.1 hh.2.1 hh.2.2 false
    · exact ⟨h, fun _ => rfl⟩
  | finish =>
    rw [begin]
    by_cases ho : pr.oxid = true
    · rw [if_pos ho]
      refine ⟨⟨by simp [Shape], h.saved⟩, fun m => by simp [cnt, handedBack, ht]⟩
    · rw [if_neg ho]; exact ⟨h, fun _ => rfl⟩
  | startAuto =>
    rw [begin]
    refine ⟨⟨by simp [Shape, ht], ?_⟩, ?_⟩
    · intro e he hne
      simp only [List.mem_cons] at he
      rcases he with rfl | he
      · cases ho : pr.oxid with
        | true => rfl
        | false => exact absurd (hs ho) hne
      · exact h.saved e he hne
    · intro m
      simp only [cnt, handedBack, ht, List.map_cons, List.sum_cons, one_zero]
      simp only [Bool.false_eq_true, if_false]
      omega
  | endAuto =>
    rw [begin]
    by_cases he : pr.saved.isEmpty = true
    · rw [if_pos he]; exact ⟨h, fun _ => rfl⟩
    · rw [if_neg he]
      by_cases ho : pr.oxid = true
      · rw [if_pos ho]
        refine ⟨⟨?_, h.saved⟩, fun m => by simp [cnt, handedBack, ht]⟩
        simp only [Shape]
        refine ⟨trivial, Or.inr ⟨trivial, ?_⟩⟩
        intro e; simp [e] at he
      · rw [if_neg ho]
        refine ⟨⟨?_, h.saved⟩, fun m => by simp [cnt, handedBack, ht]⟩
        simp only [Shape]
        have : pr.oxid = false := by simpa using ho
        exact ⟨this, hs this, trivial⟩
  | write => exact ⟨h, fun _ => rfl⟩
  | step x => exact ⟨h, fun _ => rfl⟩

end Verif.LogicalXid
