import Verif.Cic.Final
import Verif.Cic.Unique
import Verif.Cic.Life
import Verif.Cic.Spec

/-! # CREATE INDEX CONCURRENTLY: the properties -/

namespace Verif.Cic

/-! ## C84: the order of the spool -/

/-- Every entry of every file is returned once, and the entries of a file in their order. -/
theorem C84_once (files : List (List Rec)) :
    (∀ (i : Nat) l, files[i]? = some l → ((readFiles files).filter (fun o => o.file == i)).map (·.src) = l) ∧
    (∀ o ∈ readFiles files, ∃ l, files[o.file]? = some l ∧ o.src ∈ l) := by
  have h := readFiles_merge files
  have h1 : ∀ (i : Nat) l, files[i]? = some l →
      ((readFiles files).filter (fun o => o.file == i)).map (·.src) = l := by
    intro i l hl
    have := h.file i l hl
    rw [← this]
    simp only [ofFile, List.filter_map, List.map_map]
    rfl
  refine ⟨h1, ?_⟩
  intro o ho
  obtain ⟨l, hl⟩ := h.valid (o.file, o.src) (List.mem_map.2 ⟨o, ho, rfl⟩)
  refine ⟨l, hl, ?_⟩
  rw [← h1 o.file l hl]
  exact List.mem_map.2 ⟨o, List.mem_filter.2 ⟨ho, by simp⟩, rfl⟩

/-- An entry which has, with all entries before it in its file, a lower position than an entry of another
file is returned before it: when so many entries of the other file are returned that this one is among
them, so is the first. -/
theorem C84_before (files : List (List Rec)) {A B : Nat} (hAB : A ≠ B) {u v x y : List Rec} {e f : Rec}
    (hA : files[A]? = some (u ++ e :: v)) (hB : files[B]? = some (x ++ f :: y))
    (hlt : ∀ e' ∈ u ++ [e], e'.hdr.pos < f.hdr.pos) (l1 l2 : List Out) (hr : readFiles files = l1 ++ l2)
    (hf : x.length < (l1.filter (fun o => o.file == B)).length) :
    u.length < (l1.filter (fun o => o.file == A)).length := by
  have h := (readFiles_merge files).before hAB hA hB hlt (l1.map (fun o => (o.file, o.src)))
    (l2.map (fun o => (o.file, o.src))) (by rw [hr]; simp)
  simp only [ofFile, List.filter_map, List.length_map] at h
  exact h hf

/-- Two files with a rollback in the first one: its reverse entry has the position of the insertion. -/
def twoFiles : List (List Rec) :=
  [[entry 10 0 .ins [1], entry 30 1 .ins [2], entry 30 2 .rins [2], entry 10 3 .rins [1]],
   [entry 20 0 .ins [3], entry 40 1 .ins [1]]]

/-- The order in which they are returned. -/
theorem C84_case :
    (readFiles twoFiles).map (fun o => (o.file, o.src.hdr.pos, o.src.hdr.op))
      = [(0, 10, .ins), (1, 20, .ins), (0, 30, .ins), (0, 30, .rins), (0, 10, .rins), (1, 40, .ins)] := by
  decide +kernel

/-! ## C85: entries come back with their bytes -/

/-- An entry as `cic_spool_append` writes it. -/
def Written (e : Rec) : Prop := e.hdr.len = e.data.length ∧ e.data ≠ []

/-- Full statement: for all files of written entries, `o.data = .bytes o.src.data` for all returned
entries.  This is false (`C85_other_violated`, `C85_freed_violated`).  What holds: with entries in one
file only. -/
theorem C85_bytes_partial (a c : List (List Rec)) (l : List Rec) (ha : ∀ f ∈ a, f = []) (hc : ∀ f ∈ c, f = [])
    (hl : ∀ e ∈ l, Written e) : ∀ o ∈ readFiles (a ++ l :: c), o.data = .bytes o.src.data :=
  ownBytes_single _ a c l rfl ha hc hl

/-- One file of three entries, the last longer than the others, and an empty one. -/
theorem C85_bytes_case :
    (readFiles [[], [entry 10 0 .ins [1], entry 20 1 .del [1], entry 30 2 .ins [4, 5]]]).map (·.data)
      = [.bytes [1], .bytes [1], .bytes [4, 5]] ∧
    ∀ e ∈ [entry 10 0 .ins [1], entry 20 1 .del [1], entry 30 2 .ins [4, 5]], Written e := by
  refine ⟨by decide +kernel, ?_⟩
  intro e he
  simp at he
  rcases he with rfl | rfl | rfl <;> exact ⟨rfl, by simp [entry]⟩

/-- With two files an entry comes back with the bytes of an entry of the other file: a deletion of key 2
is applied to key 3. -/
theorem C85_other_violated :
    ∃ files : List (List Rec), (∀ f ∈ files, ∀ e ∈ f, Written e) ∧
      ∃ o ∈ readFiles files, o.src = entry 20 0 .del [2] ∧ o.data = .bytes [3] := by
  refine ⟨[[entry 10 0 .ins [1], entry 30 1 .ins [3]], [entry 20 0 .del [2]]], ?_,
    ⟨1, entry 20 0 .del [2], .bytes [3]⟩, by decide +kernel, rfl, rfl⟩
  intro f hf e he
  simp at hf
  rcases hf with rfl | rfl
  · simp at he
    rcases he with rfl | rfl <;> exact ⟨rfl, by simp [entry]⟩
  · simp at he
    subst he
    exact ⟨rfl, by simp [entry]⟩

/-- With tuples of different lengths freed memory is read. -/
theorem C85_freed_violated :
    ∃ files : List (List Rec), (∀ f ∈ files, ∀ e ∈ f, Written e) ∧ ∃ o ∈ readFiles files, o.data = .dangling := by
  refine ⟨[[entry 10 0 .ins [1]], [entry 20 0 .ins [2, 3]]], ?_,
    ⟨0, entry 10 0 .ins [1], .dangling⟩, by decide +kernel, rfl⟩
  intro f hf e he
  simp at hf
  rcases hf with rfl | rfl <;>
  · simp at he
    subst he
    exact ⟨rfl, by simp [entry]⟩

/-! ## C86: the last entry of a key decides -/

theorem last_same {k : Key} : ∀ {l1 m1 : List Out} {o o' : Out} {l2 m2 : List Out},
    l1 ++ o :: l2 = m1 ++ o' :: m2 → o.src.data = k → o'.src.data = k →
    (∀ x ∈ l2, x.src.data ≠ k) → (∀ x ∈ m2, x.src.data ≠ k) → o = o' := by
  intro l1
  induction l1 with
  | nil =>
    intro m1 o o' l2 m2 h ho ho' hl hm
    cases m1 with
    | nil => simp at h; exact h.1
    | cons x m1 =>
      simp at h
      exact absurd ho' (hl o' (by rw [h.2]; simp))
  | cons y l1 ih =>
    intro m1 o o' l2 m2 h ho ho' hl hm
    cases m1 with
    | nil =>
      simp at h
      exact absurd ho (hm o (by rw [← h.2]; simp))
    | cons x m1 =>
      simp at h
      exact ih h.2 ho ho' hl hm

/-- Each primary key has one row at the beginning. -/
def OneRow (ix : Ix) (tab : List Row) : Prop := ∀ r ∈ tab, ∀ r' ∈ tab, ix.pkOf r = ix.pkOf r' → r = r'

/-- The columns of the index are the first ones of the table, in order, and the primary key is among
them (as it is for every index). -/
structure Plain (ix : Ix) : Prop where
  first : ix.atts = List.range ix.atts.length
  pk : ∀ a ∈ ix.pk, a ∈ ix.atts
  some : ix.atts ≠ []

/-- All files are in the directory, each once. -/
def AllFiles (ix : Ix) (s : St) (dir : List Nat) : Prop :=
  dir.Nodup ∧ ∀ b, b < ix.n → s.file b ≠ [] → b ∈ dir

/-- Full statement: as here, for every index and run.  This is false (`C86_last_violated`): the tuples
written for deletions are wrong unless the columns of the index are the first ones of the table
(`Plain`).  With this, and if nothing undefined happens: for any number of processes, the last entry read
for a key says whether the table has a row with this key. -/
theorem C86_last_partial {ix : Ix} (hix : Plain ix) {tab : List Row} (ht : OneRow ix tab) {evs : List Ev} {s : St}
    (hr : run ix (init tab) evs = some s) (hu : s.undef = false) (hq : quiet ix s) {dir : List Nat}
    (hd : AllFiles ix s dir) {l1 l2 : List Out} {o : Out}
    (hread : readFiles (dir.map s.file) = l1 ++ o :: l2) (hlast : ∀ o' ∈ l2, o'.src.data ≠ o.src.data) :
    o.src.hdr.op.puts = true ↔ ∃ row ∈ s.tab, Spec.entryOf ix.atts row = o.src.data := by
  obtain ⟨V, h⟩ := run_inv (nf := False) hix.pk (delKey_range hix.first) (inv_init ht) hr hu (fun h => h.elim)
  rcases keys_read h hq hd.1 hd.2 o.src.data with ⟨h1, _⟩ | ⟨m1, o', m2, g1, g2, g3, g4⟩
  · exact absurd rfl (h1 o (by rw [hread]; simp))
  · have he := last_same (g1.symm.trans hread) g2 rfl g3 hlast
    rw [he] at g4
    exact g4.trans (inV_quiet h hq _)

/-- An index on the two columns of a table, the first of which is the primary key; two processes. -/
def ixA : Ix := ⟨[0, 1], [0], 2⟩

/-- Two processes; one takes back what it has done, the other inserts the same row after it, and deletes
another one. -/
def evsA : List Ev :=
  [.ins 0 [1, 5], .cap 0, .undo 0, .undo 0, .commit 0, .ins 1 [1, 5], .cap 1, .read [1], .commit 1,
   .del 1 [2], .cap 1, .commit 1]

theorem evsA_run : (run ixA (init [[2, 6]]) evsA).isSome = true := by decide +kernel

/-- The state after it. -/
def stA : St := (run ixA (init [[2, 6]]) evsA).get evsA_run

/-- The hypotheses of `C86_last_partial` hold there, with both files not empty. -/
theorem C86_last_case :
    Plain ixA ∧ OneRow ixA [[2, 6]] ∧ run ixA (init [[2, 6]]) evsA = some stA ∧ stA.undef = false ∧
    quiet ixA stA ∧ AllFiles ixA stA [1, 0] ∧
    (readFiles ([1, 0].map stA.file)).map (fun o => (o.src.data, o.src.hdr.op))
      = [([1, 5], .ins), ([1, 5], .rins), ([1, 5], .ins), ([2, 6], .del)] ∧ stA.tab = [[1, 5]] := by
  refine ⟨⟨rfl, by decide, by decide⟩, ?_, (Option.some_get evsA_run).symm, by decide +kernel, ?_, ?_,
    by decide +kernel, by decide +kernel⟩
  · intro r hr r' hr' _
    simp at hr hr'
    rw [hr, hr']
  · intro b hb
    have : b = 0 ∨ b = 1 := by simp [ixA] at hb; omega
    rcases this with rfl | rfl
    · refine ⟨?_, ?_⟩
      · have : (stA.pend 0).isNone = true := by decide +kernel
        simpa using this
      · have : (stA.stk 0).isEmpty = true := by decide +kernel
        simpa using this
    · refine ⟨?_, ?_⟩
      · have : (stA.pend 1).isNone = true := by decide +kernel
        simpa using this
      · have : (stA.stk 1).isEmpty = true := by decide +kernel
        simpa using this
  · refine ⟨by decide, ?_⟩
    intro b hb _
    have : b = 0 ∨ b = 1 := by simp [ixA] at hb; omega
    rcases this with rfl | rfl <;> simp

/-- An index on the second column of a table whose first column is the primary key; one process. -/
def ixB : Ix := ⟨[1, 0], [0], 1⟩

/-- A row inserted and deleted. -/
def evsB : List Ev := [.ins 0 [7, 3], .cap 0, .commit 0, .del 0 [7], .cap 0, .commit 0]

theorem evsB_run : (run ixB (init []) evsB).isSome = true := by decide +kernel

/-- The entry of the deletion names another key; the last entry of the key is the insertion. -/
theorem C86_last_violated :
    ∃ s, run ixB (init []) evsB = some s ∧ s.undef = false ∧ s.tab = [] ∧
      (readFiles [s.file 0]).map (fun o => (o.src.data, o.src.hdr.op)) = [([3, 7], .ins), ([7, 3], .del)] :=
  ⟨_, (Option.some_get evsB_run).symm, by decide +kernel, by decide +kernel, by decide +kernel⟩

/-! ## C87, C88: the index and the table -/

/-- No row of the table is missing in the finished index, whatever has happened. -/
theorem C87_complete {ix : Ix} {tab : List Row} {evs : List Ev} {s : St} (_hr : run ix (init tab) evs = some s)
    {dir : List Nat} {tree : Key → Bool} (hf : finish ix s dir = some tree) :
    Spec.Complete ix.atts s.tab tree := by
  intro row hrow
  simp only [finish] at hf
  split at hf
  · cases hf
  · cases hf
    simp only [Bool.or_eq_true, List.contains_eq_mem, decide_eq_true_eq]
    exact .inr (List.mem_map.2 ⟨row, hrow, rfl⟩)

/-- Full statement: `Spec.Exact ix.atts s.tab tree` for every index, run and directory.  This is false, in
three ways (below).  What holds: if the columns of the index are the first ones of the table, nothing
undefined happens, no statement fails between the change of the table and the entry of the spool, and the
entries come back with their own bytes. -/
theorem C88_exact_partial {ix : Ix} (hix : Plain ix) {tab : List Row} (ht : OneRow ix tab) {evs : List Ev} {s : St}
    (hr : run ix (init tab) evs = some s) (hu : s.undef = false) (hq : quiet ix s)
    (hfail : ∀ b, Ev.fail b ∉ evs) {dir : List Nat} (hd : AllFiles ix s dir)
    (hown : ∀ o ∈ readFiles (dir.map s.file), o.data = .bytes o.src.data) :
    ∃ tree, finish ix s dir = some tree ∧ Spec.Exact ix.atts s.tab tree := by
  obtain ⟨V, h⟩ := run_inv (nf := True) hix.pk (delKey_range hix.first) (inv_init ht) hr hu (fun _ => hfail)
  obtain ⟨t, hdr⟩ := drain_total (fun k => s.built.contains k) hown
  refine ⟨fun k => t k || (s.tab.map ix.key).contains k, by simp only [finish, hdr], ?_⟩
  intro k
  have hmem : (s.tab.map ix.key).contains k = true ↔ ∃ row ∈ s.tab, Spec.entryOf ix.atts row = k := by
    simp only [List.contains_eq_mem, decide_eq_true_eq, List.mem_map]
    rfl
  simp only [Bool.or_eq_true, hmem]
  refine ⟨?_, .inr⟩
  rintro (htk | hx)
  · rcases keys_read h hq hd.1 hd.2 k with ⟨h1, h2⟩ | ⟨m1, o', m2, g1, g2, g3, g4⟩
    · rw [drain_none hown hdr h1] at htk
      exact (inV_quiet h hq k).1 (h2 trivial (by simpa using htk))
    · rw [g1] at hown hdr
      rw [drain_last hown hdr g2 g3] at htk
      exact (inV_quiet h hq k).1 (g4.1 htk)
  · exact hx

/-- In particular if one process only has written entries. -/
theorem C88_one_writer_partial {ix : Ix} (hix : Plain ix) {tab : List Row} (ht : OneRow ix tab) {evs : List Ev}
    {s : St} (hr : run ix (init tab) evs = some s) (hu : s.undef = false) (hq : quiet ix s)
    (hfail : ∀ b, Ev.fail b ∉ evs) {dir : List Nat} (hd : AllFiles ix s dir)
    {B : Nat} (hB : ∀ b, b ≠ B → s.file b = []) :
    ∃ tree, finish ix s dir = some tree ∧ Spec.Exact ix.atts s.tab tree := by
  refine C88_exact_partial hix ht hr hu hq hfail hd ?_
  exact ownBytes_one (run_filled hix.some (delKey_range hix.first) ⟨by simp [init], by simp [init]⟩ hr) hB hd.1

/-- One process inserts two rows, takes back one insertion after the builder has read the row, deletes a
row the builder has read, and updates another one. -/
def evsC : List Ev :=
  [.read [2], .ins 0 [1, 5], .cap 0, .read [1], .undo 0, .undo 0, .commit 0, .ins 0 [4, 4], .read [4], .cap 0,
   .commit 0, .reopen 0, .del 0 [2], .cap 0, .commit 0, .upd 0 [3, 9, 1], .commit 0, .read [3]]

theorem evsC_run : (run ixA (init [[2, 6], [3, 9, 0]]) evsC).isSome = true := by decide +kernel

/-- The state after it. -/
def stC : St := (run ixA (init [[2, 6], [3, 9, 0]]) evsC).get evsC_run

theorem stC_file1 : ∀ b, b ≠ 0 → stC.file b = [] := by
  intro b hb
  obtain ⟨V, h⟩ := run_inv (nf := True) (ix := ixA) (by decide) (delKey_range rfl)
    (inv_init (tab := [[2, 6], [3, 9, 0]]) (by
      intro r hr r' hr' hp
      simp at hr hr'
      rcases hr with rfl | rfl <;> rcases hr' with rfl | rfl <;> first | rfl | (revert hp; decide)))
    (Option.some_get evsC_run).symm (by decide +kernel)
    (fun _ b hb => by simp [evsC] at hb)
  rcases Nat.lt_or_ge b 2 with h2 | h2
  · have : b = 1 := by omega
    subst this
    have : (stC.file 1).isEmpty = true := by decide +kernel
    simpa using this
  · exact (h.out b h2).2

/-- The hypotheses of `C88_one_writer_partial` hold there; keys read by the builder are gone again. -/
theorem C88_one_writer_case :
    Plain ixA ∧ OneRow ixA [[2, 6], [3, 9, 0]] ∧ run ixA (init [[2, 6], [3, 9, 0]]) evsC = some stC ∧
    stC.undef = false ∧ quiet ixA stC ∧ (∀ b, Ev.fail b ∉ evsC) ∧ AllFiles ixA stC [0] ∧
    (∀ b, b ≠ 0 → stC.file b = []) ∧ stC.built = [[2, 6], [1, 5], [4, 4], [3, 9]] ∧
    stC.tab = [[4, 4], [3, 9, 1]] := by
  refine ⟨⟨rfl, by decide, by decide⟩, ?_, (Option.some_get evsC_run).symm, by decide +kernel, ?_,
    fun b hb => by simp [evsC] at hb, ?_, stC_file1, by decide +kernel, by decide +kernel⟩
  · intro r hr r' hr' hp
    simp at hr hr'
    rcases hr with rfl | rfl <;> rcases hr' with rfl | rfl <;> first | rfl | (revert hp; decide)
  · intro b hb
    have : b = 0 ∨ b = 1 := by simp [ixA] at hb; omega
    rcases this with rfl | rfl
    · refine ⟨?_, ?_⟩
      · have : (stC.pend 0).isNone = true := by decide +kernel
        simpa using this
      · have : (stC.stk 0).isEmpty = true := by decide +kernel
        simpa using this
    · refine ⟨?_, ?_⟩
      · have : (stC.pend 1).isNone = true := by decide +kernel
        simpa using this
      · have : (stC.stk 1).isEmpty = true := by decide +kernel
        simpa using this
  · refine ⟨by decide, ?_⟩
    intro b _ hne
    by_cases h0 : b = 0
    · simp [h0]
    · exact absurd (stC_file1 b h0) hne

/-- Two processes insert, and one deletes a row: the deletion is applied to the key of the other entry
read ahead, which is inserted again later; the deleted row stays in the index. -/
def evsD : List Ev :=
  [.read [2], .ins 0 [1, 5], .cap 0, .commit 0, .del 1 [2], .cap 1, .commit 1, .ins 0 [3, 5], .cap 0, .commit 0]

theorem evsD_run : (run ixA (init [[2, 6]]) evsD).isSome = true := by decide +kernel

theorem any_run {α : Type} {x : Option α} {p : α → Bool} (h : x.any p = true) : ∃ s, x = some s ∧ p s = true := by
  cases x with
  | none => cases h
  | some s => exact ⟨s, rfl, h⟩

/-- C88 is false with two processes: the shared buffer of the reader. -/
theorem C88_two_writers_violated :
    ∃ s tree, run ixA (init [[2, 6]]) evsD = some s ∧ s.undef = false ∧ finish ixA s [0, 1] = some tree ∧
      tree [2, 6] = true ∧ ∀ row ∈ s.tab, Spec.entryOf ixA.atts row ≠ [2, 6] := by
  obtain ⟨s, hs, hp⟩ := any_run (x := run ixA (init [[2, 6]]) evsD)
    (p := fun s => !s.undef && (finish ixA s [0, 1]).any (fun t => t [2, 6])
      && s.tab.all (fun row => Spec.entryOf ixA.atts row != [2, 6])) (by decide +kernel)
  simp only [Bool.and_eq_true, Bool.not_eq_true', List.all_eq_true, bne_iff_ne, ne_eq] at hp
  obtain ⟨t, ht, hk⟩ := any_run hp.1.2
  exact ⟨s, t, hs, hp.1.1, ht, hk, hp.2⟩

/-- C88 is false for an index whose columns are not the first ones of the table: the key of a deleted row
which the builder has read stays in the index. -/
theorem C88_delete_violated :
    ∃ evs s tree, run ixB (init [[7, 3]]) evs = some s ∧ s.undef = false ∧ finish ixB s [0] = some tree ∧
      tree [3, 7] = true ∧ s.tab = [] := by
  obtain ⟨s, hs, hp⟩ := any_run (x := run ixB (init [[7, 3]]) [.read [7], .del 0 [7], .cap 0, .commit 0])
    (p := fun s => !s.undef && (finish ixB s [0]).any (fun t => t [3, 7]) && s.tab.isEmpty) (by decide +kernel)
  simp only [Bool.and_eq_true, Bool.not_eq_true', List.isEmpty_iff] at hp
  obtain ⟨t, ht, hk⟩ := any_run hp.1.2
  exact ⟨_, s, t, hs, hp.1.1, ht, hk, hp.2⟩

/-- C88 is false if a statement fails after the builder has read its row. -/
theorem C88_failed_violated :
    ∃ evs s tree, run ixA (init []) evs = some s ∧ s.undef = false ∧ finish ixA s [] = some tree ∧
      tree [1, 5] = true ∧ s.tab = [] := by
  obtain ⟨s, hs, hp⟩ := any_run (x := run ixA (init []) [.ins 0 [1, 5], .read [1], .fail 0, .commit 0])
    (p := fun s => !s.undef && (finish ixA s []).any (fun t => t [1, 5]) && s.tab.isEmpty) (by decide +kernel)
  simp only [Bool.and_eq_true, Bool.not_eq_true', List.isEmpty_iff] at hp
  obtain ⟨t, ht, hk⟩ := any_run hp.1.2
  exact ⟨_, s, t, hs, hp.1.1, ht, hk, hp.2⟩

/-! ## C89: nothing undefined happens -/

/-- No update changes the key of its row. -/
def KeysStay (ix : Ix) (tab : List Row) (evs : List Ev) : Prop :=
  ∀ pre b r post s o, evs = pre ++ .upd b r :: post → run ix (init tab) pre = some s →
    get ix s.tab (ix.pkOf r) = some o → Spec.entryOf ix.atts o = Spec.entryOf ix.atts r

theorem run_append {ix : Ix} : ∀ (a b : List Ev) (s : St),
    run ix s (a ++ b) = (run ix s a).bind (fun s' => run ix s' b) := by
  intro a
  induction a with
  | nil => intro b s; rfl
  | cons e a ih =>
    intro b s
    simp only [List.cons_append, run]
    cases step ix s e with
    | none => rfl
    | some s' => exact ih b s'

theorem step_defined {ix : Ix} (hdel : ∀ r, ix.delKey r = some (ix.key r)) {s s' : St} {ev : Ev}
    (h : s.undef = false) (hst : step ix s ev = some s')
    (hk : ∀ b r o, ev = .upd b r → get ix s.tab (ix.pkOf r) = some o → ix.key o = ix.key r) :
    s'.undef = false := by
  cases ev with
  | ins b r => simp only [step] at hst; split at hst <;> cases hst; exact h
  | del b p =>
    simp only [step] at hst
    split at hst
    · cases hst
    · split at hst <;> cases hst; exact h
  | upd b r =>
    simp only [step] at hst
    split at hst
    · cases hst
    · next o hg =>
      split at hst
      · cases hst
        rw [if_pos (hk b r o rfl hg)]
        exact h
      · cases hst
  | cap b =>
    simp only [step] at hst
    split at hst
    · next op row it rest hp hs =>
      cases hst
      have hkk : (if op = .ins then some (ix.key row) else ix.delKey row) = some (ix.key row) := by
        split
        · rfl
        · exact hdel row
      simp only [capture, hkk]
      exact h
    · cases hst
  | undo b =>
    simp only [step, undo] at hst
    split at hst
    · split at hst <;> cases hst <;> exact h
    · cases hst; exact h
    · cases hst
  | fail b => simp only [step] at hst; split at hst <;> cases hst; exact h
  | commit b => simp only [step] at hst; split at hst <;> cases hst; exact h
  | reopen b => simp only [step] at hst; cases hst; exact h
  | read p => simp only [step] at hst; split at hst <;> cases hst <;> exact h

/-- Full statement: nothing undefined happens in any run.  This is false (`C89_update_violated`,
`C89_delete_violated`).  What holds: if the columns of the index are the first ones of the table and no
update changes them. -/
theorem C89_defined_partial {ix : Ix} (hix : Plain ix) {tab : List Row} {evs : List Ev} {s : St}
    (hr : run ix (init tab) evs = some s) (hk : KeysStay ix tab evs) : s.undef = false := by
  suffices H : ∀ (post pre : List Ev) (s0 : St), evs = pre ++ post → run ix (init tab) pre = some s0 →
      s0.undef = false → run ix s0 post = some s → s.undef = false from
    H evs [] (init tab) rfl rfl rfl hr
  intro post
  induction post with
  | nil => intro pre s0 _ _ hu h; simp only [run] at h; cases h; exact hu
  | cons ev post ih =>
    intro pre s0 he hpre hu h
    simp only [run] at h
    split at h
    · cases h
    · next s1 hs =>
      refine ih (pre ++ [ev]) s1 (by simp [he]) ?_ ?_ h
      · rw [run_append, hpre]
        simp only [Option.bind_some, run, hs]
      · refine step_defined (delKey_range hix.first) hu hs ?_
        intro b r o hev hg
        subst hev
        exact hk pre b r post s0 o he hpre hg

/-- The run `evsC` has an update which leaves the key. -/
theorem C89_defined_case : KeysStay ixA [[2, 6], [3, 9, 0]] evsC ∧
    (run ixA (init [[2, 6], [3, 9, 0]]) evsC).isSome = true := by
  refine ⟨?_, evsC_run⟩
  intro pre b r post s o he hpre hg
  have hpos : pre = evsC.take 15 ∧ b = 0 ∧ r = [3, 9, 1] := by
    have hlen : pre.length = 15 := by
      have h1 : evsC[pre.length]? = some (.upd b r) := by rw [he]; simp
      have h2 : ∀ i : Fin evsC.length, (match evsC[i] with | .upd _ _ => decide (i.val = 15) | _ => true) = true := by
        decide
      have hlt : pre.length < evsC.length := by rw [he]; simp
      have h3 := h2 ⟨pre.length, hlt⟩
      rw [List.getElem?_eq_getElem hlt] at h1
      simp only [Option.some.injEq] at h1
      have h4 : evsC[(⟨pre.length, hlt⟩ : Fin evsC.length)] = Ev.upd b r := h1
      rw [h4] at h3
      simpa using h3
    have hp : pre = evsC.take 15 := by rw [he, ← hlen]; simp
    have h1 : evsC[15]? = some (.upd b r) := by rw [he, ← hlen]; simp
    have h2 : evsC[15]? = some (.upd 0 [3, 9, 1]) := rfl
    rw [h2] at h1
    simp at h1
    exact ⟨hp, h1.1.symm, h1.2.symm⟩
  obtain ⟨rfl, rfl, rfl⟩ := hpos
  have hg' : (run ixA (init [[2, 6], [3, 9, 0]]) (evsC.take 15)).bind (fun s => get ixA s.tab (ixA.pkOf [3, 9, 1]))
      = some [3, 9, 0] := by decide +kernel
  rw [hpre] at hg'
  simp only [Option.bind_some] at hg'
  rw [hg] at hg'
  cases hg'
  decide

/-- An update of an indexed column works on the tree of the index, which is not there. -/
theorem C89_update_violated : ∃ s, run ixA (init [[2, 6]]) [.upd 0 [2, 7]] = some s ∧ s.undef = true :=
  any_run (p := St.undef) (by decide +kernel)

/-- A deletion with an index on the third column reads beyond the end of the tuple. -/
theorem C89_delete_violated :
    ∃ s, run ⟨[2, 0], [0], 1⟩ (init [[1, 5, 9]]) [.del 0 [1], .cap 0] = some s ∧ s.undef = true :=
  any_run (p := St.undef) (by decide +kernel)

/-! ## C90: unique indexes -/

theorem cmpLoop_eq : ∀ {a b : List Val}, a.length = b.length → ((cmpLoop a b).1 = true ↔ a = b ∧ none ∉ a) := by
  intro a
  induction a with
  | nil => intro b h; cases b <;> simp [cmpLoop] at h ⊢
  | cons x a ih =>
    intro b h
    cases b with
    | nil => simp at h
    | cons y b =>
      simp only [List.length_cons, Nat.add_right_cancel_iff] at h
      simp only [cmpLoop]
      cases x with
      | none => simp
      | some x =>
        cases y with
        | none => simp
        | some y =>
          by_cases hxy : x = y
          · subst hxy
            simp [ih h]
          · simp [hxy]

theorem keyLe_antisymm : ∀ {a b : List Val}, Spec.keyLe a b = true → Spec.keyLe b a = true → a = b := by
  intro a
  induction a with
  | nil => intro b _ h; cases b <;> simp [Spec.keyLe] at h ⊢
  | cons x a ih =>
    intro b h1 h2
    cases b with
    | nil => simp [Spec.keyLe] at h1
    | cons y b =>
      by_cases hxy : x = y
      · subst hxy
        simp only [Spec.keyLe, if_true] at h1 h2
        rw [ih h1 h2]
      · exfalso
        simp only [Spec.keyLe, if_neg hxy, if_neg (Ne.symm hxy)] at h1 h2
        cases x with
        | none =>
          cases y with
          | none => exact hxy rfl
          | some y => simp [Spec.valLe] at h1
        | some x =>
          cases y with
          | none => simp [Spec.valLe] at h2
          | some y =>
            simp only [Spec.valLe, decide_eq_true_eq] at h1 h2
            exact hxy (by rw [Nat.le_antisymm h1 h2])

theorem walk_spec (n : Nat) : ∀ {l : List (List Val)}, (∀ t ∈ l, t.length = n) →
    l.Pairwise (fun a b => Spec.keyLe a b = true) →
    (walk false l = true ↔ l.Pairwise (fun a b => ¬ Spec.Same false a b)) := by
  intro l
  induction l with
  | nil => intro _ _; simp [walk]
  | cons a l ih =>
    intro hn hs
    cases l with
    | nil => simp [walk]
    | cons b l =>
      have hs' := List.pairwise_cons.1 hs
      have hab : a.length = b.length := by rw [hn a (by simp), hn b (by simp)]
      have hih := ih (fun t ht => hn t (by simp [ht])) hs'.2
      simp only [walk, Bool.and_eq_true, hih, Bool.not_eq_true']
      rw [List.pairwise_cons (a := a)]
      constructor
      · rintro ⟨h1, h2⟩
        refine ⟨?_, h2⟩
        intro c hc hsame
        simp only [rejects, Bool.and_false, Bool.or_false] at h1
        have hsm : a = c ∧ none ∉ a := ⟨hsame.1, hsame.2.resolve_left (by simp)⟩
        have hne : ¬ (a = b ∧ none ∉ a) := by
          intro h
          rw [(cmpLoop_eq hab).2 h] at h1
          cases h1
        rcases List.mem_cons.1 hc with rfl | hc
        · exact hne hsm
        · have hbc := (List.pairwise_cons.1 hs'.2).1 c hc
          have hle := hs'.1 b (by simp)
          rw [← hsm.1] at hbc
          exact hne ⟨keyLe_antisymm hle hbc, hsm.2⟩
      · rintro ⟨h1, h2⟩
        refine ⟨?_, h2⟩
        simp only [rejects, Bool.and_false, Bool.or_false]
        cases hc : (cmpLoop a b).1 with
        | false => rfl
        | true =>
          have := (cmpLoop_eq hab).1 hc
          exact absurd ⟨this.1, .inr this.2⟩ (h1 b (by simp))

/-- The tuples of the index in the order of the keys. -/
def inOrder (leaves : List Leaf) : List (List Val) := leaves.flatMap Leaf.tuples

/-- Full statement: for every index in key order, `checkUnique nnd leaves = true` exactly if
`Spec.NoDuplicates nnd (inOrder leaves)`.  This is false (`C90_nulls_violated`, `C90_disk_violated`).  What
holds: for indexes where NULLs are distinct, with all pages in memory. -/
theorem C90_unique_partial (n : Nat) (leaves : List Leaf) (hn : ∀ t ∈ inOrder leaves, t.length = n)
    (hs : (inOrder leaves).Pairwise (fun a b => Spec.keyLe a b = true)) (hm : ∀ l ∈ leaves, l.disk = none) :
    checkUnique false leaves = true ↔ Spec.NoDuplicates false (inOrder leaves) := by
  have h1 : leaves.filter (fun l => l.disk.isNone) = leaves := by
    rw [List.filter_eq_self]
    intro l hl
    simp [hm l hl]
  have h2 : leaves.filter (fun l => l.disk.isSome) = [] := by
    rw [List.filter_eq_nil_iff]
    intro l hl
    simp [hm l hl]
  have : scanOrder leaves = inOrder leaves := by
    simp only [scanOrder, h1, h2, inOrder]
    simp
  simp only [checkUnique, this]
  exact walk_spec n hn hs

/-- Two pages with a duplicate across their border, and NULLs. -/
def leavesA : List Leaf :=
  [⟨none, [[some 1, some 1], [some 2, some 5]]⟩, ⟨none, [[some 2, some 5], [some 2, none], [some 2, none]]⟩]

theorem C90_unique_case :
    (∀ t ∈ inOrder leavesA, t.length = 2) ∧ (inOrder leavesA).Pairwise (fun a b => Spec.keyLe a b = true) ∧
    (∀ l ∈ leavesA, l.disk = none) ∧ checkUnique false leavesA = false := by
  refine ⟨by decide, by decide, ?_, by decide +kernel⟩
  intro l hl
  simp [leavesA] at hl
  rcases hl with rfl | rfl <;> rfl

/-- With NULLS NOT DISTINCT one NULL is enough for an error. -/
theorem C90_nulls_violated :
    ∃ leaves : List Leaf, (∀ l ∈ leaves, l.disk = none) ∧
      (inOrder leaves).Pairwise (fun a b => Spec.keyLe a b = true) ∧
      Spec.NoDuplicates true (inOrder leaves) ∧ checkUnique true leaves = false := by
  refine ⟨[⟨none, [[some 5], [none]]⟩], by simp, by decide, ?_, by decide +kernel⟩
  simp [inOrder, Spec.NoDuplicates, Spec.Same]

/-- A duplicate on a page which is not in memory is not found. -/
theorem C90_disk_violated :
    ∃ leaves : List Leaf, (inOrder leaves).Pairwise (fun a b => Spec.keyLe a b = true) ∧
      ¬ Spec.NoDuplicates false (inOrder leaves) ∧ checkUnique false leaves = true := by
  refine ⟨[⟨some 8, [[some 1]]⟩, ⟨none, [[some 1], [some 2]]⟩], by decide, ?_, by decide +kernel⟩
  simp [inOrder, Spec.NoDuplicates, Spec.Same]

/-! ## C91: the directory -/

namespace Life

/-- While an index is built its directory is there, and is named by an earlier transaction. -/
def Good (s : St) : Prop := ∀ x, s.index = .building x → x ∈ s.dirs ∧ x < s.xid

theorem insert_state {s s' : St} {b : Nat} (h : insert s b = some s') :
    s'.index = s.index ∧ s'.dirs = s.dirs ∧ s'.xid = s.xid := by
  simp only [insert] at h
  split at h
  · split at h
    · cases h; exact ⟨rfl, rfl, rfl⟩
    · split at h <;> cases h; exact ⟨rfl, rfl, rfl⟩
  · cases h; exact ⟨rfl, rfl, rfl⟩

theorem step_good {s : St} (h : Good s) {ev : Ev} (hev : ev ≠ .crash) : Good (step s ev) := by
  cases ev with
  | ambuild =>
    simp only [step]
    split
    · intro x hx
      simp only [Index.building.injEq] at hx
      subst hx
      simp
    · exact h
  | finish =>
    simp only [step]
    split
    · intro x hx; cases hx
    · exact h
  | fails => intro x hx; exact ⟨(h x hx).1, Nat.lt_succ_of_lt (h x hx).2⟩
  | drop => intro x hx; simp [step] at hx
  | crash => exact absurd rfl hev
  | exit b => exact h
  | insert b =>
    simp only [step]
    cases hi : insert s b with
    | none => exact h
    | some s' =>
      obtain ⟨h1, h2, h3⟩ := insert_state hi
      intro x hx
      simp only [Option.getD_some] at hx ⊢
      rw [h1] at hx
      rw [h2, h3]
      exact h x hx

theorem run_good : ∀ {evs : List Ev} {s : St}, Good s → Ev.crash ∉ evs → Good (run s evs) := by
  intro evs
  induction evs with
  | nil => intro s h _; exact h
  | cons ev evs ih =>
    intro s h hc
    exact ih (step_good h (fun e => hc (by simp [e]))) (fun hm => hc (by simp [hm]))

end Life

/-- Full statement: an INSERT never fails for the sake of an index being built, in any run.  This is false
(`C91_crash_violated`).  What holds: as long as there is no crash. -/
theorem C91_insert_partial (evs : List Life.Ev) (hc : .crash ∉ evs) (b : Nat) :
    (Life.insert (Life.run Life.init evs) b).isSome = true := by
  have hg := Life.run_good (s := Life.init) (by intro x hx; cases hx) hc
  simp only [Life.insert]
  split
  · next x hx =>
    split
    · rfl
    · rw [if_pos (hg x hx).1]; rfl
  · rfl

/-- An index being built, after a failed attempt at another one. -/
theorem C91_insert_case :
    Life.Ev.crash ∉ [Life.Ev.ambuild, .insert 1, .fails, .drop, .ambuild, .insert 1] ∧
    (Life.run Life.init [.ambuild, .insert 1, .fails, .drop, .ambuild, .insert 1]).index = .building 3 := by
  refine ⟨by decide, by decide⟩

/-- After a crash all insertions fail until the index is dropped. -/
theorem C91_crash_violated (b : Nat) :
    Life.insert (Life.run Life.init [.ambuild, .insert b, .crash]) b = none := by
  simp [Life.run, Life.step, Life.init, Life.insert]

/-- Full statement: no directory is left when the index is finished.  This is false: it is always left,
until the next crash. -/
theorem C91_left_violated (evs : List Life.Ev) (hc : .crash ∉ evs) (x : Nat)
    (hx : (Life.run Life.init evs).index = .building x) :
    (Life.run Life.init (evs ++ [.finish])).index = .valid x ∧
    x ∈ (Life.run Life.init (evs ++ [.finish])).dirs := by
  have hg := Life.run_good (s := Life.init) (by intro x hx; cases hx) hc x hx
  have he : Life.run Life.init (evs ++ [.finish]) = Life.step (Life.run Life.init evs) .finish := by
    simp [Life.run]
  rw [he]
  simp only [Life.step, hx, List.mem_filter, bne_iff_ne, ne_eq]
  exact ⟨trivial, hg.1, Nat.ne_of_lt hg.2⟩

end Verif.Cic
