import Verif.S3Queue.Inv

/-!
# C10: the S3 task queue is a FIFO

The histories `puts`, `picks`, `gets` of a run are the results the C functions
returned.  The claims speak about them and about ring positions only.
-/
namespace Verif.S3Queue

/-! ## The list of tasks put -/

def plist : Nat → List Task → List (Nat × List Word)
  | _, [] => []
  | start, t :: ts => (start, t.data) :: plist (start + t.len) ts

theorem plist_append {start : Nat} {ts : List Task} {t : Task} :
    plist start (ts ++ [t]) = plist start ts ++ [(start + total ts, t.data)] := by
  induction ts generalizing start with
  | nil => rfl
  | cons a ts ih =>
    simp only [List.cons_append, plist, ih, total]
    rw [Nat.add_assoc]

theorem plist_setSt {start k : Nat} {ts : List Task} {st : St} :
    plist start (setSt ts k st) = plist start ts := by
  induction ts generalizing start k with
  | nil => rw [setSt_nil]
  | cons a ts ih =>
    cases k with
    | zero => rw [setSt_cons_zero]; rfl
    | succ k => rw [setSt_cons_succ, plist, plist, ih]

theorem plist_get {start k : Nat} {ts : List Task} :
    (plist start ts)[k]? = ts[k]?.map fun t => (start + locOf ts k, t.data) := by
  induction ts generalizing start k with
  | nil => simp [plist]
  | cons a ts ih =>
    cases k with
    | zero => simp [plist, locOf_zero]
    | succ k =>
      simp only [plist, List.getElem?_cons_succ, ih, locOf_cons]
      rw [Nat.add_assoc]

theorem plist_length {start : Nat} {ts : List Task} : (plist start ts).length = ts.length := by
  induction ts generalizing start with
  | nil => rfl
  | cons a ts ih => simp [plist, ih]

/-- The histories are consistent. -/
structure Hist (s : S) : Prop where
  puts : s.puts = plist 0 s.tasks
  gets : ∀ g ∈ s.gets, g ∈ s.puts

theorem Hist.step {N ne : Nat} {s : S} (h : Hist s) (hi : Inv N s ne) (o : Op) (hok : o.ok N s) :
    Hist (s.step N o) := by
  have hp := h.puts
  have hg := h.gets
  cases o with
  | reserve data =>
    constructor
    · show s.puts ++ _ = plist 0 (s.tasks ++ _)
      rw [plist_append, hp, hi.ins, Nat.zero_add]
    · intro g hg'
      exact List.mem_append_left _ (hg g hg')
  | fill k =>
    unfold S.step
    dsimp only
    split
    · split
      · exact ⟨by rw [plist_setSt]; exact hp, hg⟩
      · exact h
    · exact h
  | pick =>
    unfold S.step
    dsimp only
    split
    · exact ⟨by dsimp only; rw [plist_setSt]; exact hp, hg⟩
    · exact ⟨hp, hg⟩
  | get k g =>
    unfold S.step
    dsimp only
    split
    · rename_i data hk
      rw [hi.get_spec hk rfl (by simpa [Op.ok, hk] using hok)]
      refine ⟨hp, ?_⟩
      intro x hx
      rcases List.mem_append.1 hx with hx | hx
      · exact hg x hx
      · rw [List.mem_singleton.1 hx]
        dsimp only
        rw [hp]
        refine List.mem_of_getElem? (i := k) ?_
        rw [plist_get, hk, Nat.zero_add]
        rfl
    · exact h
  | erase k =>
    unfold S.step
    dsimp only
    split
    · exact ⟨by dsimp only; rw [plist_setSt]; exact hp, hg⟩
    · exact h
  | advance i =>
    unfold S.step
    dsimp only
    split
    · split
      · unfold S.zero
        dsimp only
        split
        · exact ⟨by dsimp only; rw [plist_setSt]; exact hp, hg⟩
        · exact ⟨by dsimp only; rw [plist_setSt]; exact hp, hg⟩
      · exact ⟨hp, hg⟩
    · exact h
  | casOnly i => exact hok.elim
  | zeroOnly i => exact hok.elim

theorem run_both {N : Nat} {ops : List Op} (hok : okRun N S.init ops) :
    (∃ ne, Inv N (S.init.run N ops) ne) ∧ Hist (S.init.run N ops) := by
  have key : ∀ (ops : List Op) (s : S) (ne : Nat), Inv N s ne → Hist s → okRun N s ops →
      (∃ ne, Inv N (s.run N ops) ne) ∧ Hist (s.run N ops) := by
    intro ops
    induction ops with
    | nil => intro s ne h1 h2 _; exact ⟨⟨ne, h1⟩, h2⟩
    | cons o os ih =>
      intro s ne h1 h2 h3
      obtain ⟨ne', h1'⟩ := h1.step o h3.1
      exact ih _ ne' h1' (h2.step h1 o h3.1) h3.2
  exact key ops S.init 0 Inv.init ⟨rfl, by simp [S.init]⟩ hok

/-! ## The claims -/

/-- Tasks are handed to workers in the order of their locations, each once. -/
def Fifo (s : S) : Prop := s.picks = (s.puts.map Prod.fst).take s.picks.length

/-- Locations never coincide. -/
def Distinct (s : S) : Prop := (s.puts.map Prod.fst).Pairwise (· < ·)

/-- Every body a worker obtained is the one put at that location. -/
def Intact (s : S) : Prop := ∀ g ∈ s.gets, g ∈ s.puts

/-- Tasks whose body is in the ring: put completely and not yet erased. -/
def Live (t : Task) : Prop := t.st = .filled ∨ t.st = .picked

/-- Two tasks in the ring at the same time use different words of it. -/
def Disjoint (N : Nat) (s : S) : Prop := ∀ (i j : Nat) (a b : Task), i ≠ j → s.tasks[i]? = some a →
  s.tasks[j]? = some b → Live a → Live b → ∀ x y, x < a.len → y < b.len →
  (locOf s.tasks i + x) % N ≠ (locOf s.tasks j + y) % N

/-- No task is lost: a task put completely is offered as soon as the ones before it
were taken. -/
def Offered (N : Nat) (s : S) : Prop := ∀ t : Task, s.tasks[s.picks.length]? = some t →
  t.st = .filled → (s.q.tryPick N).1 = (s.puts[s.picks.length]?).map Prod.fst

/-- No space is lost: with no erasure in progress, `erasedLocation` is the location of
the first task whose worker has not erased it. -/
def Reclaimed (s : S) : Prop := s.pcs = [] → ∀ (k : Nat) (t : Task), s.tasks[k]? = some t →
  (∀ (i : Nat) (u : Task), i < k → s.tasks[i]? = some u → u.st = .flagged ∨ u.st = .done) →
  (t.st = .flagged ∨ t.st = .done) → locOf s.tasks k + t.len ≤ s.q.er

/-- Full claim: for every run of putting, picking, getting and erasing processes. -/
def C10_claim (adm : Nat → S → Op → Prop) : Prop :=
  ∀ (N : Nat) (ops : List Op),
    (∀ pre o suf, ops = pre ++ o :: suf → adm N (S.init.run N pre) o) →
    let s := S.init.run N ops
    Fifo s ∧ Distinct s ∧ Intact s ∧ Disjoint N s ∧ Offered N s ∧ Reclaimed s

/-- Bodies are not empty and below 2 GiB. -/
def sized (_ : Nat) (_ : S) : Op → Prop
  | .reserve data => 0 < data.length ∧ 4 * (data.length + 1) < FLAG
  | _ => True

/-- The erasing loop's compare-and-swap and length store are not separated. -/
def atomicErase (_ : Nat) (_ : S) : Op → Prop
  | .casOnly _ => False
  | .zeroOnly _ => False
  | _ => True

/-- No task that wraps around the physical end of the ring is read. -/
def noWrap (N : Nat) (s : S) : Op → Prop
  | .get k _ => s.tasks[k]?.all (fun t => decide (locOf s.tasks k % N + t.len ≤ N)) = true
  | _ => True

instance (N : Nat) (s : S) (o : Op) : Decidable (sized N s o) := by
  cases o <;> unfold sized <;> infer_instance

instance (N : Nat) (s : S) (o : Op) : Decidable (atomicErase N s o) := by
  cases o <;> unfold atomicErase <;> infer_instance

instance (N : Nat) (s : S) (o : Op) : Decidable (noWrap N s o) := by
  cases o <;> unfold noWrap <;> infer_instance

theorem run_append {N : Nat} {s : S} {a b : List Op} : s.run N (a ++ b) = (s.run N a).run N b := by
  unfold S.run; rw [List.foldl_append]

theorem okRun_of {N : Nat} (s : S) (ops : List Op)
    (h : ∀ pre o suf, ops = pre ++ o :: suf → o.ok N (s.run N pre)) : okRun N s ops := by
  induction ops generalizing s with
  | nil => trivial
  | cons o os ih =>
    refine ⟨h [] o os rfl, ih _ ?_⟩
    intro pre o' suf he
    exact h (o :: pre) o' suf (by rw [he]; rfl)

theorem locs_eq {ts : List Task} :
    (plist 0 ts).map Prod.fst = (List.range ts.length).map (locOf ts) := by
  apply List.ext_getElem?
  intro i
  rw [List.getElem?_map, plist_get, List.getElem?_map]
  by_cases hi : i < ts.length
  · rw [List.getElem?_range hi, List.getElem?_eq_getElem hi]
    simp
  · rw [List.getElem?_eq_none (by omega), List.getElem?_eq_none (by simp; omega)]
    rfl

/-- **C10**, for tasks that do not wrap around the end of the ring and erasing loops
that are not interrupted between advancing the location and clearing the length. -/
theorem C10_partial : C10_claim fun N s o => sized N s o ∧ atomicErase N s o ∧ noWrap N s o := by
  intro N ops h
  have hok : okRun N S.init ops := by
    refine okRun_of _ _ ?_
    intro pre o suf he
    have := h pre o suf he
    cases o <;> simp_all [Op.ok, sized, atomicErase, noWrap]
  obtain ⟨⟨ne, hi⟩, hh⟩ := run_both hok
  intro s
  refine ⟨?_, ?_, hh.gets, ?_, ?_, ?_⟩
  · unfold Fifo
    have h1 : s.puts = plist 0 s.tasks := hh.puts
    have h2 : s.picks = _ := hi.picks
    have h3 : s.picks.length ≤ s.tasks.length := hi.npLe
    rw [h1, locs_eq, ← List.map_take, List.take_range, Nat.min_eq_left h3]
    exact h2
  · unfold Distinct
    have h1 : s.puts = plist 0 s.tasks := hh.puts
    rw [h1, locs_eq, List.pairwise_map]
    refine List.Pairwise.imp_of_mem ?_ List.pairwise_lt_range
    intro a b ha hb hlt
    exact locOf_strict hlt (by rw [List.mem_range] at hb; omega)
  · have main : ∀ (i j : Nat) (a b : Task), i < j → s.tasks[i]? = some a → s.tasks[j]? = some b →
        Live a → Live b → ∀ x y, x < a.len → y < b.len →
        (locOf s.tasks i + x) % N ≠ (locOf s.tasks j + y) % N := by
      intro i j a b hij ha hb la lb x y hx hy
      have hne : ne ≤ i := hi.picked_ge ha (by rcases la with h | h <;> rw [h] <;> simp)
      have hle : s.q.er ≤ locOf s.tasks i := by
        have := hi.er
        rw [this]; exact locOf_mono hne
      have hr := hi.room j b hb (by rcases lb with h | h <;> rw [h] <;> simp)
      have hs := locOf_succ ha
      have hm := locOf_mono (ts := s.tasks) (i := i + 1) (j := j) hij
      change locOf s.tasks j + b.len ≤ s.q.er + N at hr
      apply mod_ne <;> omega
    intro i j a b hij ha hb la lb x y hx hy
    rcases Nat.lt_or_gt_of_ne hij with h | h
    · exact main i j a b h ha hb la lb x y hx hy
    · exact fun e => main j i b a h hb ha lb la y x hy hx e.symm
  · intro t ht hf
    have h1 : s.puts = plist 0 s.tasks := hh.puts
    have h2 : s.q.pick = locOf s.tasks s.picks.length := hi.pick
    rw [h1, plist_get, ht]
    rcases hi.tryPick_spec with ⟨u, hu, hs, he⟩ | ⟨hn, _⟩
    · have he' : (s.q.tryPick N).1 = some s.q.pick := by rw [show s.q.tryPick N = _ from he]
      rw [he', h2]
      simp
    · exact absurd hf (hn t ht)
  · intro hp k t hk hall hst
    have her : s.q.er = locOf s.tasks ne := hi.er
    have hkne : k < ne := by
      apply Decidable.byContradiction
      intro hc
      have hlt := (List.getElem?_eq_some_iff.1 hk).1
      obtain ⟨u, hu⟩ : ∃ u, s.tasks[ne]? = some u :=
        ⟨_, List.getElem?_eq_getElem (show ne < s.tasks.length by omega)⟩
      have hnd : u.st ≠ .done := fun hd => by have := (hi.done ne u hu).2 hd; omega
      have huf : u.st = .flagged := by
        by_cases hkn : ne = k
        · subst hkn; rw [hk] at hu; cases hu
          rcases hst with h | h
          · exact h
          · exact absurd h hnd
        · rcases hall ne u (by omega) hu with h | h
          · exact h
          · exact absurd h hnd
      have := hi.pend u hu huf
      rw [show (S.run N S.init ops).pcs = [] from hp] at this
      cases this
    rw [← locOf_succ hk, her]
    exact locOf_mono hkne

/-- The restrictions of `C10_partial` are met by a run that goes several times around
a ring of 8 words with two workers and erasures out of order. -/
def sampleOps : List Op :=
  [.reserve [11, 12], .reserve [21, 22, 23, 24], .fill 1, .fill 0, .pick, .pick, .pick, .get 0 [],
   .get 1 [], .erase 1, .advance 0, .reserve [31, 32], .erase 0, .advance 0, .advance 0,
   .fill 2, .pick, .get 2 [], .reserve [41, 42], .reserve [51, 52, 53], .fill 3, .pick, .pick,
   .get 3 [], .fill 4, .erase 2, .advance 0, .erase 3, .advance 0]

example :
    let s := S.init.run 8 sampleOps
    s.picks = [0, 3, 8, 11] ∧ s.puts.map Prod.fst = [0, 3, 8, 11, 14] ∧ s.q.er = 14 ∧
      s.gets = [(0, [11, 12]), (3, [21, 22, 23, 24]), (8, [31, 32]), (11, [41, 42])] := by
  decide

/-- `casOnly`/`zeroOnly` do not occur, all bodies fit and no task read wraps around. -/
example : okRun 8 S.init sampleOps := by
  simp only [okRun, sampleOps, Op.ok, true_and, and_true]
  decide

/-! ## Where the code falls short -/

/-- Two tasks go through the ring of 8 words, then a task at location 6 wraps around
its end and is read. -/
def wrapOps : List Op :=
  [.reserve [11, 12], .reserve [21, 22], .fill 0, .fill 1, .pick, .get 0 [], .erase 0, .advance 0,
   .reserve [31, 32, 33], .fill 2, .pick, .get 1 [], .pick, .get 2 [77, 78, 79]]

theorem admissible_of_all {adm : Nat → S → Op → Prop} {N : Nat} {ops : List Op}
    (h : ∀ i : Fin ops.length, adm N (S.init.run N (ops.take i)) ops[i]) :
    ∀ pre o suf, ops = pre ++ o :: suf → adm N (S.init.run N pre) o := by
  intro pre o suf he
  subst he
  have := h ⟨pre.length, by simp⟩
  simpa using this

/-- **C10 is false for tasks that wrap around the end of the ring**: the arguments of
the first `memcpy` of `s3_queue_get_task` are swapped, so the first part of the body
is uninitialised memory (here 77), which is also written over the task. -/
theorem C10_violated : ¬ C10_claim fun N s o => sized N s o ∧ atomicErase N s o := by
  intro h
  have hadm : ∀ i : Fin wrapOps.length,
      sized 8 (S.init.run 8 (wrapOps.take i)) wrapOps[i] ∧
      atomicErase 8 (S.init.run 8 (wrapOps.take i)) wrapOps[i] := by decide
  have := (h 8 wrapOps (admissible_of_all
    (adm := fun N s o => sized N s o ∧ atomicErase N s o) hadm)).2.2.1
  have hg : ((S.init.run 8 wrapOps).gets) = [(0, [11, 12]), (3, [21, 22]), (6, [77, 32, 33])] := by
    decide
  have hp : ((S.init.run 8 wrapOps).puts) = [(0, [11, 12]), (3, [21, 22]), (6, [31, 32, 33])] := by
    decide
  have := this (6, [77, 32, 33]) (by rw [hg]; simp)
  rw [hp] at this
  simp at this

/-- Four tasks in a ring of 8 words; the fourth one is put between the
compare-and-swap and the zeroing of the length of the second. -/
def raceOps : List Op :=
  [.reserve [11], .reserve [21], .reserve [31, 32, 33], .reserve [41, 42, 43], .fill 0, .fill 1,
   .fill 2, .pick, .pick, .erase 0, .advance 0, .erase 1, .casOnly 0, .fill 3, .zeroOnly 0, .pick,
   .pick, .get 3 []]

/-- **C10 is false when a task is put while another process is between advancing
`erasedLocation` and clearing the length word**: `s3_queue_erase_task` makes the space
available before it stops writing to it (src/s3/queue.c:308-312).  Here the second
word of a body is overwritten with 0. -/
theorem C10_erase_race : ¬ C10_claim fun N s o => sized N s o ∧ noWrap N s o := by
  intro h
  have hadm : ∀ i : Fin raceOps.length,
      sized 8 (S.init.run 8 (raceOps.take i)) raceOps[i] ∧
      noWrap 8 (S.init.run 8 (raceOps.take i)) raceOps[i] := by decide
  have := (h 8 raceOps (admissible_of_all
    (adm := fun N s o => sized N s o ∧ noWrap N s o) hadm)).2.2.1
  have hg : ((S.init.run 8 raceOps).gets) = [(8, [41, 0, 43])] := by decide
  have hp : ((S.init.run 8 raceOps).puts) =
      [(0, [11]), (2, [21]), (4, [31, 32, 33]), (8, [41, 42, 43])] := by decide
  have := this (8, [41, 0, 43]) (by rw [hg]; simp)
  rw [hp] at this
  simp at this

/-- In the same way a task can vanish: its length is cleared after it was put. -/
theorem C10_erase_race_loses_task :
    let ops : List Op := [.reserve [11, 12, 13], .reserve [21, 22, 23], .reserve [31, 32, 33],
      .fill 0, .fill 1, .pick, .erase 0, .casOnly 0, .fill 2, .zeroOnly 0, .pick]
    let s := S.init.run 8 ops
    s.tasks[2]?.map Task.st = some .filled ∧ s.picks = [0, 4] ∧ (s.q.tryPick 8).1 = none := by
  decide

/-! ## Waiting for a task -/

/-- **C36**, first part: `s3_queue_wait_for_location` on a location returned by
`s3_queue_put_task` returns exactly when `erasedLocation` has passed this task and all
tasks before it. -/
theorem C36_wait_for_own (N : Nat) (ops : List Op)
    (hok : ∀ pre o suf, ops = pre ++ o :: suf → sized N (S.init.run N pre) o ∧
      atomicErase N (S.init.run N pre) o ∧ noWrap N (S.init.run N pre) o) :
    let s := S.init.run N ops
    ∀ (k : Nat) (t : Task), s.tasks[k]? = some t →
      (s.q.waitDone (locOf s.tasks k) ↔
        ∀ (i : Nat) (u : Task), i ≤ k → s.tasks[i]? = some u → u.st = .done) := by
  have hok' : okRun N S.init ops := by
    refine okRun_of _ _ ?_
    intro pre o suf he
    have := hok pre o suf he
    cases o <;> simp_all [Op.ok, sized, atomicErase, noWrap]
  obtain ⟨⟨ne, hi⟩, _⟩ := run_both hok'
  intro s k t hk
  have her : s.q.er = locOf s.tasks ne := hi.er
  have hlt := (List.getElem?_eq_some_iff.1 hk).1
  have hdone : ∀ (k : Nat) (t : Task), s.tasks[k]? = some t → (k < ne ↔ t.st = .done) := hi.done
  unfold Q.waitDone
  rw [her]
  constructor
  · intro h i u hik hu
    refine (hdone i u hu).1 ?_
    apply Decidable.byContradiction
    intro hc
    exact h (locOf_mono (by omega))
  · intro h
    have hkne : k < ne := (hdone k t hk).2 (h k t (Nat.le_refl _) hk)
    have hnele : ne ≤ s.tasks.length := Nat.le_trans hi.neLe hi.npLe
    have := locOf_strict hkne hnele
    omega

/-- Full claim of C36 for a backend that finds the part already being loaded and
therefore waits for `s3_queue_get_insert_location()` (src/s3/worker.c:704-711): once
everything put so far is erased, it is released. -/
def C36_claim : Prop := ∀ (N : Nat) (ops : List Op),
  (∀ pre o suf, ops = pre ++ o :: suf → sized N (S.init.run N pre) o ∧
      atomicErase N (S.init.run N pre) o ∧ noWrap N (S.init.run N pre) o) →
  let s := S.init.run N ops
  (∀ t ∈ s.tasks, t.st = .done) → s.q.waitDone s.q.ins

/-- **C36 is false** for such a backend: `erasedLocation <= insertLocation` always
holds, so it sleeps until some later task is put and processed. -/
theorem C36_violated : ¬ C36_claim := by
  intro h
  refine h 8 [] (by simp) (by simp [S.run, S.init]) ?_
  exact Nat.le_refl _

/-- It is not released by any continuation in which no task is put. -/
theorem C36_never_released (N : Nat) (s : S) (ne : Nat) (h : Inv N s ne) (ops : List Op)
    (hok : okRun N s ops) (hno : ∀ data, .reserve data ∉ ops) :
    ¬ (s.run N ops).q.waitDone s.q.ins := by
  have hins : (s.run N ops).q.ins = s.q.ins := by
    clear h
    induction ops generalizing s with
    | nil => rfl
    | cons o os ih =>
      have hstep : (s.step N o).q.ins = s.q.ins := by
        cases o with
        | reserve data => exact absurd (List.mem_cons_self) (hno data)
        | fill k => unfold S.step; dsimp only; split <;> (try split) <;> rfl
        | pick =>
          unfold S.step Q.tryPick
          dsimp only
          split
          · rename_i he
            split at he
            · cases he
            · split at he
              · cases he
              · split at he
                · cases he
                · cases he; rfl
          · rename_i he
            split at he
            · cases he; rfl
            · split at he
              · cases he; rfl
              · split at he
                · cases he; rfl
                · cases he
        | get k g =>
          unfold S.step Q.get; dsimp only; split
          · split <;> rfl
          · rfl
        | erase k => unfold S.step Q.eraseBody; dsimp only; split <;> rfl
        | advance i =>
          unfold S.step Q.cas S.zero Q.zero
          dsimp only
          split
          · split
            · rename_i he
              split at he
              · cases he
                dsimp only
                split
                · rename_i he2
                  split at he2
                  · cases he2; rfl
                  · cases he2
                · rename_i he2
                  split at he2
                  · cases he2
                  · cases he2; rfl
              · cases he
            · rfl
          · rfl
        | casOnly i => exact hok.1.elim
        | zeroOnly i => exact hok.1.elim
      have := ih (s.step N o) hok.2 (fun d hd => hno d (List.mem_cons_of_mem _ hd))
      rw [← hstep, ← this]
      rfl
  obtain ⟨ne', h'⟩ := run_inv h hok
  unfold Q.waitDone
  rw [Decidable.not_not, ← hins, h'.er, h'.ins, ← locOf_length]
  exact locOf_mono (Nat.le_trans h'.neLe h'.npLe)

/-- The hypotheses of `C36_never_released` are met after a task went through. -/
example : ∃ ne, Inv 8 (S.init.run 8 [.reserve [1], .fill 0, .pick]) ne ∧
    okRun 8 (S.init.run 8 [.reserve [1], .fill 0, .pick]) [.get 0 [], .erase 0, .advance 0] := by
  refine ⟨0, ?_, ?_⟩
  · exact ((Inv.init.reserve [1] (by simp [Op.ok, FLAG])).fill 0).pickStep
  · simp only [okRun, Op.ok, and_true]
    decide

end Verif.S3Queue
