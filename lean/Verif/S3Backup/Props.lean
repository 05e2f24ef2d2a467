import Verif.S3Backup.RestoreProofs
import Verif.S3Backup.SmallLost
import Verif.S3Backup.SumsProofs

/-! # C115–C119: backups of PGDATA in S3 mode -/

namespace Verif.S3Backup

theorem any_run {α : Type} {x : Option α} {p : α → Bool} (h : x.any p = true) : ∃ s, x = some s ∧ p s = true := by
  cases x with
  | none => cases h
  | some s => exact ⟨s, rfl, h⟩

/-- Names of the cases: `./AA`, `./AB`, … -/
def nm (i : Nat) : Bytes := [46, 47, UInt8.ofNat (65 + i / 26), UInt8.ofNat (65 + i % 26)]

/-- Files of the cases: numbers `a` to `a + n - 1`, contents made of `c` and the number. -/
def files (c : UInt8) (a n : Nat) : List (Bytes × Bytes) :=
  (List.range' a n).map (fun i => (nm i, [c, UInt8.ofNat i]))

instance (p : Bytes × Bytes) : Decidable (GoodSmall p) := by unfold GoodSmall; infer_instance
instance (F : List (Bytes × Bytes)) : Decidable (Distinct F) := by unfold Distinct; infer_instance

/-- Anything goes. -/
abbrev Any : Bytes → Prop := fun _ => True

theorem good_files (c : UInt8) : ∀ p ∈ files c 0 220, GoodSmall p := by
  intro p hp
  obtain ⟨i, hi, rfl⟩ := List.mem_map.1 hp
  have hi : i < 220 := by
    have := List.mem_range'_1.1 hi
    omega
  refine ⟨by simp [smallThreshold], by simp [nm], ?_⟩
  have : ∀ i < 220, ∀ b ∈ nm i, b ≠ 0 ∧ b < 128 := by decide +kernel
  exact this i hi

theorem files_ok {c : UInt8} {a n : Nat} (h : a + n ≤ 220) : ∀ p ∈ files c a n, Any p.1 ∧ Any p.2 ∧ GoodSmall p := by
  intro p hp
  refine ⟨trivial, trivial, good_files c p ?_⟩
  obtain ⟨i, hi, rfl⟩ := List.mem_map.1 hp
  have := List.mem_range'_1.1 hi
  exact List.mem_map.2 ⟨i, List.mem_range'_1.2 (by omega), rfl⟩

theorem files_good {c : UInt8} {a n : Nat} (h : a + n ≤ 220) : ∀ p ∈ files c a n, GoodSmall p :=
  fun p hp => (files_ok h p hp).2.2

/-! ## C115 -/

theorem chg_listed {H : Bytes → Bytes} {n : Nat} {T : List Entry} (hT : (T.map Entry.name).Nodup) (p : Bytes × Bytes) :
    chg H n T p = !(T.any (fun e => e.name == p.1 && e.sum == H p.2)) := by
  cases hc : chg H n T p with
  | false =>
    obtain ⟨e, he, h1, h2, _⟩ := ent_unchanged hc
    have : T.any (fun e => e.name == p.1 && e.sum == H p.2) = true :=
      List.any_eq_true.2 ⟨e, he, by simp [h1, h2]⟩
    rw [this]
    rfl
  | true =>
    cases ha : T.any (fun e => e.name == p.1 && e.sum == H p.2) with
    | false => rfl
    | true =>
      obtain ⟨e, he, h1⟩ := List.any_eq_true.1 ha
      simp only [Bool.and_eq_true, beq_iff_eq] at h1
      unfold chg entryOf at hc
      split at hc
      · rename_i hf
        rw [List.find?_eq_none] at hf
        exact absurd (by simp [h1.1]) (hf e he)
      · rename_i y hy
        have hyn : y.name = p.1 := by simpa using List.find?_some hy
        have : y = e := by
          have hym := List.mem_of_find?_eq_some hy
          clear hc ha hy
          induction T with
          | nil => cases he
          | cons a T ih =>
            rw [List.map_cons, List.nodup_cons] at hT
            rcases List.mem_cons.1 he with rfl | he' <;> rcases List.mem_cons.1 hym with rfl | hym'
            · rfl
            · exact absurd (List.mem_map.2 ⟨y, hym', hyn.trans h1.1.symm⟩) hT.1
            · exact absurd (List.mem_map.2 ⟨e, he', h1.1.trans hyn.symm⟩) hT.1
            · exact ih hT.2 he' hym'
        subst this
        rw [if_pos h1.2] at hc
        cases hc

theorem unpackAll_lists : ∀ {ps : List Bytes} {l : List (Bytes × Bytes)}, unpackAll ps = some l →
    ∃ ls : List (List (Bytes × Bytes)), ps.map unpack = ls.map some ∧ ls.flatten = l
  | [], _, h => by
    cases h
    exact ⟨[], rfl, rfl⟩
  | p :: ps, l, h => by
    simp only [unpackAll] at h
    split at h
    · rename_i a b ha hb
      cases h
      obtain ⟨ls, h1, h2⟩ := unpackAll_lists hb
      exact ⟨a :: ls, by simp [ha, h1], by simp [h2]⟩
    · cases h

/-- **C115** for files that stay as they are during the backup: the packs hold, in the order of the scan, the files
that are not listed with the same checksum in the list of the former backup, each once and with its contents, and no
pack is longer than 1 MB.  Missing: files that change during the backup (`C115_violated`). -/
theorem C115_partial {H : Bytes → Bytes} {garb : Nat → UInt8} {n : Nat} {T t : List Entry} {F : List (Bytes × Bytes)}
    {packs : List Bytes} (hg : ∀ p ∈ F, GoodSmall p) (hT : (T.map Entry.name).Nodup)
    (h : backupSmall H garb n T (F.map still) = some (t, packs)) :
    (∃ ls : List (List (Bytes × Bytes)), packs.map unpack = ls.map some
      ∧ ls.flatten = F.filter (fun p => !(T.any (fun e => e.name == p.1 && e.sum == H p.2))))
    ∧ ∀ p ∈ packs, p.length ≤ 1048576 := by
  obtain ⟨h1, h2, _⟩ := backupSmall_spec hg h
  obtain ⟨ls, h3, h4⟩ := unpackAll_lists h1
  refine ⟨⟨ls, h3, ?_⟩, h2⟩
  rw [h4]
  exact List.filter_congr fun p _ => chg_listed hT p

theorem C115_partial_case :
    (∀ p ∈ files 1 0 101, GoodSmall p) ∧ (([⟨nm 0, [1, 0], 1⟩] : List Entry).map Entry.name).Nodup ∧
    ∃ t packs, backupSmall id (fun _ => 7) 2 [⟨nm 0, [1, 0], 1⟩] ((files 1 0 101).map still) = some (t, packs) := by
  have hg : ∀ p ∈ files 1 0 101, GoodSmall p := files_good (by omega)
  refine ⟨hg, by decide, ?_⟩
  obtain ⟨ps, _, h2, _⟩ := backup_ok (H := id) (w := ⟨1, [⟨nm 0, [1, 0], 1⟩], fun _ => []⟩) (garb := fun _ => 7) hg
    (by simp [files, sumsMax])
  exact ⟨_, _, h2⟩

/-- C115 does not hold for a file that becomes shorter while the backup runs: the pack gets bytes of uninitialised
memory (here 7) that were never in the file. -/
theorem C115_violated : ∃ (f : SmallFile) (garb : Nat → UInt8) (out : Bytes),
    f.atSum = some [1, 2] ∧ f.atFlush = some [1] ∧ f.size = 2 ∧ flushSmall garb [f] = some out
      ∧ unpack out = some [(f.name, [1, 7])] := by
  obtain ⟨out, h1, h2⟩ := any_run (x := flushSmall (fun _ => 7) [⟨nm 0, 2, some [1, 2], some [1]⟩])
    (p := fun out => unpack out == some [(nm 0, [1, 7])]) (by decide +kernel)
  exact ⟨⟨nm 0, 2, some [1, 2], some [1]⟩, fun _ => 7, out, rfl, rfl, rfl, h1, by simpa using h2⟩

/-! ## C116 -/

/-- **C116** for names without commas and newlines that do not begin with a blank and are not longer than 1023: the
list of checksums that any series of backups leaves, also with backups given up and workers that failed, is read back
by the next backup without error and unchanged.  Missing: other names (`C116_violated`). -/
theorem C116_partial {H : Bytes → Bytes} {C : Bytes → Prop} {nw : Nat} {w : BigWorld} (hH : ∀ d, Plain 64 (H d))
    (hr : BigReach H (Plain 1023) C nw w) : parseFile (w.num + 1) (formatFile w.table) = some w.table := by
  obtain ⟨h1, h2⟩ := big_names hr
  have h3 := big_hinv hr
  refine parseFile_format ?_ h1
  intro e he
  obtain ⟨_, a, d, _, b⟩ := h3.src e he
  exact ⟨h2 e he, by rw [← b]; exact hH d, by omega⟩

/-- C116 for the list of the small files, with the same restriction. -/
theorem C116_small_partial {H : Bytes → Bytes} {C : Bytes → Prop} {w : SmallWorld} (hH : ∀ d, Plain 64 (H d))
    (hr : SmallReach H (Plain 1023) C w) : parseFile (w.num + 1) (formatFile w.table) = some w.table := by
  obtain ⟨O, _, h3, _, _, h1, h2⟩ := small_hinv hr
  refine parseFile_format ?_ h1
  intro e he
  obtain ⟨_, a, d, _, b⟩ := h3.src e he
  exact ⟨h2 e he, by rw [← b]; exact hH d, by omega⟩

/-- A checksum for the cases: the length, as letters. -/
def lenSum (d : Bytes) : Bytes := [UInt8.ofNat (97 + d.length % 26)]

theorem lenSum_plain (d : Bytes) : Plain 64 (lenSum d) := by
  have h : ∀ k < 26, Plain 64 [UInt8.ofNat (97 + k)] := by
    intro k hk
    unfold Plain
    revert k
    decide
  exact h _ (Nat.mod_lt _ (by omega))

theorem nm_plain (i : Nat) (h : i < 220) : Plain 1023 (nm i) := by
  have : ∀ i < 220, ∀ b ∈ nm i, b ≠ 44 ∧ b ≠ 10 := by decide +kernel
  refine ⟨by simp [nm], by simp [nm], this i h, ?_⟩
  intro b hb
  cases hb
  rfl

theorem files_plain {c : UInt8} {a n : Nat} (h : a + n ≤ 220) : ∀ p ∈ files c a n, Plain 1023 p.1 := by
  intro p hp
  obtain ⟨i, hi, rfl⟩ := List.mem_map.1 hp
  have := List.mem_range'_1.1 hi
  exact nm_plain i (by omega)

/-- The steps of one worker for `n` files. -/
def oneByOne (n : Nat) : List BigEv :=
  (List.replicate n [BigEv.put, .inc, .pick 0, .record 0, .upload 0, .done 0]).flatten ++ [.idle 0, .finish]

theorem C116_partial_case : ∃ w, BigReach lenSum (Plain 1023) (fun _ => True) 1 w ∧ w.num = 2 ∧ w.table.length = 3 := by
  obtain ⟨w1, h1, h2⟩ := any_run (x := BigWorld.init.backup lenSum 1 (files 1 0 2) (oneByOne 2))
    (p := fun w => (w.backup lenSum 1 (files 2 0 3) (oneByOne 3)).any (fun w => w.num == 2 && w.table.length == 3))
    (by decide +kernel)
  obtain ⟨w2, h3, h4⟩ := any_run h2
  simp only [Bool.and_eq_true, beq_iff_eq] at h4
  have hp : ∀ p ∈ files 1 0 2, Plain 1023 p.1 ∧ True := by
    intro p hp
    exact ⟨files_plain (by omega) p hp, trivial⟩
  have hp' : ∀ p ∈ files 2 0 3, Plain 1023 p.1 ∧ True := by
    intro p hp
    exact ⟨files_plain (by omega) p hp, trivial⟩
  exact ⟨w2, .backup (.backup .init (by decide +kernel) hp h1) (by decide +kernel) hp' h3, h4.1, h4.2⟩

theorem C116_small_partial_case : ∃ w, SmallReach lenSum (Plain 1023) (fun _ => True) w ∧ w.table.length = 200 := by
  obtain ⟨ps, h1, _⟩ := backup_ok (H := lenSum) (w := SmallWorld.init) (F := files 1 0 201) (garb := fun _ => 0)
    (files_good (by omega)) (by simp [files, sumsMax])
  refine ⟨_, .backup .init (F := files 1 0 201) (by decide +kernel) ?_ h1, ?_⟩
  · intro p hp
    exact ⟨files_plain (by omega) p hp, trivial, files_good (by omega) p hp⟩
  · simp [files, sumsMax]

/-- C116 does not hold for a file with a comma in its name (`./a,b`): a backup writes a list that no later backup can
read. -/
theorem C116_violated : ∃ w, BigReach lenSum (fun _ => True) (fun _ => True) 1 w ∧
    w.table = [⟨[46, 47, 97, 44, 98], [98], 1⟩] ∧ ∀ n, parseFile n (formatFile w.table) = none := by
  obtain ⟨w1, h1, h2⟩ := any_run (x := BigWorld.init.backup lenSum 1 [([46, 47, 97, 44, 98], [1])] (oneByOne 1))
    (p := fun w => decide (w.table = [⟨[46, 47, 97, 44, 98], [98], 1⟩])) (by decide +kernel)
  have h2 : w1.table = [⟨[46, 47, 97, 44, 98], [98], 1⟩] := by simpa using h2
  refine ⟨w1, .backup .init (by decide) (fun _ _ => ⟨trivial, trivial⟩) h1, h2, ?_⟩
  intro n
  rw [h2]
  simp [parseFile, formatFile, formatLine, litFile, litSum, litCk, digits, splitLines, readLines, parseLine, scanLit,
    scanSet, isSpace]

/-! ## C117 -/

/-- **C117** when no worker fails during the backup: after a complete backup the loader restores exactly the files that
were there, with their contents.  `C` are the contents that were ever backed up, without a collision of checksums.
Missing: workers that fail and are started again (`C117_violated`). -/
theorem C117_partial {H : Bytes → Bytes} {N C : Bytes → Prop} {nw : Nat} {w w' : BigWorld} {F : List (Bytes × Bytes)}
    {es : List BigEv} (hinj : ∀ a b, C a → C b → H a = H b → a = b) (hr : BigReach H N C nw w) (hF : Distinct F)
    (hC : ∀ p ∈ F, N p.1 ∧ C p.2) (hb : w.backup H nw F es = some w') (hc : complete H nw w F es = true)
    (hn : ∀ v, BigEv.restart v ∉ es) :
    ∃ fs, w'.restore = some fs ∧ ∀ x d, fs x = some d ↔ (x, d) ∈ F := by
  obtain ⟨fs, h1, h2, h3⟩ := big_restore hr hF hC hinj hb hc
  exact ⟨fs, h1, fun x d => ⟨h2 x d, h3 hn x d⟩⟩

/-- Two workers, three backups: one given up, one file unchanged since the first. -/
theorem C117_partial_case : ∃ w w' es, BigReach id (fun _ => True) (fun _ => True) 2 w ∧ w.num = 2 ∧
    w.backup id 2 (files 1 0 2 ++ files 2 2 1) es = some w' ∧ complete id 2 w (files 1 0 2 ++ files 2 2 1) es = true ∧
    (∀ v, BigEv.restart v ∉ es) ∧ w'.table.any (fun e => e.ck == 1) = true ∧
    w'.table.any (fun e => e.ck == 3) = true := by
  let es3 : List BigEv := [.put, .inc, .put, .inc, .pick 1, .pick 0, .record 0, .record 1, .upload 1, .done 1, .put, .pick 1,
    .inc, .upload 0, .done 0, .record 1, .upload 1, .done 1, .idle 1, .idle 0, .finish]
  obtain ⟨w1, h1, h2⟩ := any_run (x := BigWorld.init.backup id 2 (files 1 0 2) (oneByOne 2))
    (p := fun w => (w.backup id 2 (files 2 0 3) [.put, .inc, .pick 1, .record 1, .upload 1]).any (fun w => w.num == 2 &&
      (complete id 2 w (files 1 0 2 ++ files 2 2 1) es3 && (w.backup id 2 (files 1 0 2 ++ files 2 2 1) es3).any
        (fun w => w.table.any (fun e => e.ck == 1) && w.table.any (fun e => e.ck == 3))))) (by decide +kernel)
  obtain ⟨w2, h3, h4⟩ := any_run h2
  simp only [Bool.and_eq_true, beq_iff_eq] at h4
  obtain ⟨h5, h6, h7⟩ := h4
  obtain ⟨w3, h8, h9⟩ := any_run h7
  rw [Bool.and_eq_true] at h9
  exact ⟨w2, w3, es3, .backup (.backup .init (by decide +kernel) (fun _ _ => ⟨trivial, trivial⟩) h1) (by decide +kernel)
    (fun _ _ => ⟨trivial, trivial⟩) h3, h5, h8, h6, (by simp [es3]), h9.1, h9.2⟩

/-- C117 does not hold when a worker fails: its checksums that are not written yet are gone, so an unchanged file is
not in the list of the backup and is not restored. -/
theorem C117_violated : ∃ (F : List (Bytes × Bytes)) (es1 es2 : List BigEv) (w1 w2 : BigWorld) (fs : Fs) (x d : Bytes),
    Distinct F ∧ BigWorld.init.backup id 1 (files 1 0 1) es1 = some w1 ∧
    complete id 1 BigWorld.init (files 1 0 1) es1 = true ∧
    w1.backup id 1 F es2 = some w2 ∧ complete id 1 w1 F es2 = true ∧
    w2.restore = some fs ∧ (x, d) ∈ F ∧ fs x = none := by
  let es2 : List BigEv := [.put, .inc, .put, .inc, .pick 0, .record 0, .upload 0, .done 0, .pick 0, .record 0, .restart 0,
    .record 0, .upload 0, .done 0, .idle 0, .finish]
  obtain ⟨w1, h1, h2⟩ := any_run (x := BigWorld.init.backup id 1 (files 1 0 1) (oneByOne 1))
    (p := fun w => complete id 1 w (files 1 0 2) es2 && (w.backup id 1 (files 1 0 2) es2).any
      (fun w => w.restore.any (fun fs => (fs (nm 0)).isNone))) (by decide +kernel)
  rw [Bool.and_eq_true] at h2
  obtain ⟨w2, h3, h4⟩ := any_run h2.2
  obtain ⟨fs, h5, h6⟩ := any_run h4
  exact ⟨files 1 0 2, oneByOne 1, es2, w1, w2, fs, nm 0, [1, 0], by decide +kernel, h1, by decide +kernel, h3, h2.1, h5,
    by decide +kernel, by simpa using h6⟩

/-! ## C118 -/

/-- **C118** when each unchanged file is in the list of the backup with the number of this checkpoint or of the one
before: the loader restores exactly the files that were there, with their contents.  Missing: unchanged files among
the last files of the scan (`C118_violated`) and files that did not change in the last two checkpoints
(`C118_violated_older`). -/
theorem C118_partial {H : Bytes → Bytes} {N C : Bytes → Prop} {w w' : SmallWorld} {F : List (Bytes × Bytes)}
    {garb : Nat → UInt8} (hinj : ∀ a b, C a → C b → H a = H b → a = b) (hr : SmallReach H N C w) (hF : Distinct F)
    (hC : ∀ p ∈ F, N p.1 ∧ C p.2 ∧ GoodSmall p) (hb : w.backup H garb (F.map still) = some w')
    (hl : ∀ p ∈ F, (∃ e ∈ w.table, e.name = p.1 ∧ e.sum = H p.2) → ∃ e ∈ w'.table, e.name = p.1 ∧ w'.num ≤ e.ck + 1) :
    ∃ fs, w'.restore = some fs ∧ ∀ x d, fs x = some d ↔ (x, d) ∈ F := by
  obtain ⟨h1, h2⟩ := small_restore hr hF hC hinj hb
  obtain ⟨fs, h3, h4⟩ := h2 (by
    intro p hp hc
    obtain ⟨e, he, hn, hs, _⟩ := ent_unchanged hc
    obtain ⟨e', he', hn', hk⟩ := hl p hp ⟨e, he, hn, hs⟩
    obtain ⟨ps, t, lost, rfl, _, k2, _⟩ := small_backup (fun p hp => (hC p hp).2.2) hb
    have hm : e' ∈ F.map (ent H (w.num + 1) w.table) := by
      rw [← k2]
      exact List.mem_append.2 (.inl he')
    obtain ⟨q, hq, rfl⟩ := List.mem_map.1 hm
    rw [ent_name] at hn'
    have h2 : q.2 = p.2 := hF.func (x := q.1) hq (by rw [hn']; exact hp)
    have : q = p := Prod.ext hn' h2
    subst this
    exact ⟨he', hk⟩)
  exact ⟨fs, h3, fun x d => ⟨h1 fs h3 x d, h4 x d⟩⟩

/-- The entries of these files when they were uploaded by backup `k`. -/
def sums (F : List (Bytes × Bytes)) (k : Nat) : List Entry := F.map (fun p => ⟨p.1, p.2, k⟩)

theorem distinct_files {c : UInt8} {a n : Nat} (h : a + n ≤ 220) : Distinct (files c a n) := by
  unfold Distinct files
  rw [List.map_map]
  refine nodup_map (List.nodup_range' (step := 1)) ?_
  intro i hi j hj hij
  have h1 := List.mem_range'_1.1 hi
  have h2 := List.mem_range'_1.1 hj
  have e1 : UInt8.ofNat (65 + i / 26) = UInt8.ofNat (65 + j / 26) := by
    simp only [Function.comp, nm, List.cons.injEq] at hij
    exact hij.2.2.1
  have e2 : UInt8.ofNat (65 + i % 26) = UInt8.ofNat (65 + j % 26) := by
    simp only [Function.comp, nm, List.cons.injEq] at hij
    exact hij.2.2.2.1
  have e1 := congrArg UInt8.toNat e1
  have e2 := congrArg UInt8.toNat e2
  simp only [UInt8.toNat_ofNat'] at e1 e2
  omega

/-- The state after a backup of 201 files. -/
theorem first : ∃ w, SmallReach id Any Any w ∧ w.num = 1 ∧ w.table = sums (files 1 0 200) 1 := by
  obtain ⟨w, h1, h2, h3, _⟩ := backup_is (H := id) (w := SmallWorld.init) (F := files 1 0 201) (garb := fun _ => 0)
    (t := sums (files 1 0 200) 1) rfl rfl (files_good (by omega)) (by simp [files, sumsMax]) (by decide +kernel)
  exact ⟨w, .backup .init (distinct_files (by omega)) (files_ok (by omega)) h1, h2, h3⟩

/-- A second backup with 100 unchanged files, which are listed, and a changed one. -/
theorem C118_partial_case : ∃ w w' F, SmallReach id Any Any w ∧ Distinct F ∧ (∀ p ∈ F, Any p.1 ∧ Any p.2 ∧ GoodSmall p) ∧
    w.backup id (fun _ => 0) (F.map still) = some w' ∧ F.length = 101 ∧
    (∃ p ∈ F, ∃ e ∈ w.table, e.name = p.1 ∧ e.sum = p.2) ∧
    ∀ p ∈ F, (∃ e ∈ w.table, e.name = p.1 ∧ e.sum = id p.2) → ∃ e ∈ w'.table, e.name = p.1 ∧ w'.num ≤ e.ck + 1 := by
  obtain ⟨w, hr, hn, ht⟩ := first
  have hg : ∀ p ∈ files 1 0 100 ++ files 2 100 1, Any p.1 ∧ Any p.2 ∧ GoodSmall p := by
    intro p hp
    rcases List.mem_append.1 hp with hp | hp
    · exact files_ok (by omega) p hp
    · exact files_ok (by omega) p hp
  have hd : Distinct (files 1 0 100 ++ files 2 100 1) := by
    have hn : (files 1 0 100 ++ files 2 100 1).map Prod.fst = (files 1 0 101).map Prod.fst := by decide +kernel
    unfold Distinct
    rw [hn]
    exact distinct_files (c := 1) (a := 0) (n := 101) (by omega)
  obtain ⟨w', h1, h2, h3, _⟩ := backup_is (H := id) (F := files 1 0 100 ++ files 2 100 1) (garb := fun _ => 0)
    (t := sums (files 1 0 100) 1) hn ht (fun p hp => (hg p hp).2.2) (by simp [files, sumsMax]) (by decide +kernel)
  refine ⟨w, w', files 1 0 100 ++ files 2 100 1, hr, hd, hg, h1, by simp [files], ?_, ?_⟩
  · refine ⟨(nm 0, [1, 0]), by simp [files, List.range'], ⟨nm 0, [1, 0], 1⟩, ?_, rfl, rfl⟩
    rw [ht]
    decide +kernel
  · intro p hp ⟨e, he, hen, hes⟩
    rcases List.mem_append.1 hp with hp | hp
    · refine ⟨⟨p.1, p.2, 1⟩, ?_, rfl, by rw [h2]; exact Nat.le_refl _⟩
      rw [h3]
      exact List.mem_map.2 ⟨p, hp, rfl⟩
    · exfalso
      rw [ht] at he
      have hp : p = (nm 100, [2, 100]) := by simpa [files] using hp
      subst hp
      have : ∀ e ∈ sums (files 1 0 200) 1, e.sum ≠ [2, 100] := by decide +kernel
      exact this e he hes

/-- C118 does not hold: the last file of the scan, if it has not changed, is not restored, whatever else was backed up
(the checksums in the buffer are not written at the end).  The second part is such a case. -/
theorem C118_violated :
    (∀ (H : Bytes → Bytes) (N C : Bytes → Prop) (w w' : SmallWorld) (G : List (Bytes × Bytes)) (p : Bytes × Bytes)
      (garb : Nat → UInt8), SmallReach H N C w → Distinct (G ++ [p]) →
      (∀ q ∈ G ++ [p], N q.1 ∧ C q.2 ∧ GoodSmall q) → w.backup H garb ((G ++ [p]).map still) = some w' →
      (∃ e ∈ w.table, e.name = p.1 ∧ e.sum = H p.2) →
      ∀ fs, w'.restore = some fs → fs p.1 = none) ∧
    ∃ w w' G p, SmallReach id Any Any w ∧ Distinct (G ++ [p]) ∧ (∀ q ∈ G ++ [p], Any q.1 ∧ Any q.2 ∧ GoodSmall q) ∧
      w.backup id (fun _ => 0) ((G ++ [p]).map still) = some w' ∧ ∃ e ∈ w.table, e.name = p.1 ∧ e.sum = p.2 := by
  constructor
  · intro H N C w w' G p garb hr hF hC hb ⟨e, he, h1, h2⟩
    refine restore_last hr hF hC hb ?_
    obtain ⟨_, _, _, _, _, hnd, _⟩ := small_hinv hr
    rw [chg_listed hnd]
    have : w.table.any (fun e => e.name == p.1 && e.sum == H p.2) = true :=
      List.any_eq_true.2 ⟨e, he, by simp [h1, h2]⟩
    rw [this]
    rfl
  · obtain ⟨w, hr, hn, ht⟩ := first
    obtain ⟨w', h1, _⟩ := backup_is (H := id) (F := files 1 99 101) (garb := fun _ => 0) hn ht (files_good (by omega))
      (by simp [files, sumsMax]) rfl
    have hs : files 1 99 101 = files 1 99 100 ++ [(nm 199, [1, 199])] := by decide +kernel
    rw [hs] at h1
    refine ⟨w, w', files 1 99 100, (nm 199, [1, 199]), hr, ?_, ?_, h1, ⟨nm 199, [1, 199], 1⟩, ?_, rfl, rfl⟩
    · rw [← hs]
      exact distinct_files (by omega)
    · rw [← hs]
      exact files_ok (by omega)
    · rw [ht]
      decide +kernel

/-- C118 does not hold for files that did not change in the last two checkpoints: the loader fails as soon as one such
file is listed.  The second part is such a case: the same 101 files backed up three times. -/
theorem C118_violated_older :
    (∀ (H : Bytes → Bytes) (N C : Bytes → Prop) (w : SmallWorld), SmallReach H N C w →
      (∃ e ∈ w.table, e.ck + 1 < w.num) → w.restore = none) ∧
    ∃ w1 w2 w3, SmallWorld.init.backup id (fun _ => 0) ((files 1 0 101).map still) = some w1 ∧
      w1.backup id (fun _ => 0) ((files 1 0 101).map still) = some w2 ∧
      w2.backup id (fun _ => 0) ((files 1 0 101).map still) = some w3 ∧ w3.restore = none := by
  constructor
  · rintro H N C w hr ⟨e, he, ho⟩
    exact restore_older hr he ho
  · have hd : Distinct (files 1 0 101) := distinct_files (by omega)
    have hg := files_ok (c := 1) (a := 0) (n := 101) (by omega)
    have hl : sumsMax < (files 1 0 101).length := by simp [files, sumsMax]
    obtain ⟨w1, h1, n1, t1, _⟩ := backup_is (H := id) (w := SmallWorld.init) (n := 0) (T := []) (garb := fun _ => 0)
      (t := sums (files 1 0 100) 1) rfl rfl (files_good (by omega)) hl (by decide +kernel)
    obtain ⟨w2, h2, n2, t2, _⟩ := backup_is (H := id) (garb := fun _ => 0) (t := sums (files 1 0 100) 1) n1 t1
      (files_good (by omega)) hl (by decide +kernel)
    obtain ⟨w3, h3, n3, t3, _⟩ := backup_is (H := id) (garb := fun _ => 0) (t := sums (files 1 0 100) 1) n2 t2
      (files_good (by omega)) hl (by decide +kernel)
    refine ⟨w1, w2, w3, h1, h2, h3, ?_⟩
    refine restore_older (.backup (.backup (.backup .init hd hg h1) hd hg h2) hd hg h3) (e := ⟨nm 0, [1, 0], 1⟩) ?_ ?_
    · rw [t3]
      decide +kernel
    · rw [n3]
      decide

/-! ## C119 -/

/-- **C119** for files uploaded one by one: whatever backups were made before, complete or given up, and whichever
workers failed, after a complete backup the loader restores no file that was not there and none with other contents. -/
theorem C119_partial {H : Bytes → Bytes} {N C : Bytes → Prop} {nw : Nat} {w w' : BigWorld} {F : List (Bytes × Bytes)}
    {es : List BigEv} (hinj : ∀ a b, C a → C b → H a = H b → a = b) (hr : BigReach H N C nw w) (hF : Distinct F)
    (hC : ∀ p ∈ F, N p.1 ∧ C p.2) (hb : w.backup H nw F es = some w') (hc : complete H nw w F es = true) :
    ∃ fs, w'.restore = some fs ∧ ∀ x d, fs x = some d → (x, d) ∈ F := by
  obtain ⟨fs, h1, h2, _⟩ := big_restore hr hF hC hinj hb hc
  exact ⟨fs, h1, h2⟩

/-- C119 for small files, when no backup was given up: what the loader restores is right.  Missing: series with backups
given up (`C119_violated`). -/
theorem C119_small_partial {H : Bytes → Bytes} {N C : Bytes → Prop} {w w' : SmallWorld} {F : List (Bytes × Bytes)}
    {garb : Nat → UInt8} (hinj : ∀ a b, C a → C b → H a = H b → a = b) (hr : SmallReach H N C w) (hF : Distinct F)
    (hC : ∀ p ∈ F, N p.1 ∧ C p.2 ∧ GoodSmall p) (hb : w.backup H garb (F.map still) = some w') :
    ∀ fs, w'.restore = some fs → ∀ x d, fs x = some d → (x, d) ∈ F :=
  (small_restore hr hF hC hinj hb).1

/-- A worker fails in the first backup and in the second. -/
theorem C119_partial_case : ∃ w w' es, BigReach id Any Any 1 w ∧ w.num = 1 ∧
    w.backup id 1 (files 1 0 1 ++ files 2 1 1) es = some w' ∧ complete id 1 w (files 1 0 1 ++ files 2 1 1) es = true ∧
    BigEv.restart 0 ∈ es ∧ w.table.length = 2 := by
  let es1 : List BigEv := [.put, .inc, .pick 0, .restart 0, .record 0, .upload 0, .done 0, .put, .inc, .pick 0, .record 0,
    .upload 0, .done 0, .idle 0, .finish]
  let es2 : List BigEv := [.put, .inc, .put, .inc, .pick 0, .record 0, .upload 0, .done 0, .pick 0, .record 0, .restart 0,
    .record 0, .upload 0, .done 0, .idle 0, .finish]
  obtain ⟨w1, h1, h2⟩ := any_run (x := BigWorld.init.backup id 1 (files 1 0 2) es1)
    (p := fun w => (w.num == 1 && w.table.length == 2) && (complete id 1 w (files 1 0 1 ++ files 2 1 1) es2
      && (w.backup id 1 (files 1 0 1 ++ files 2 1 1) es2).isSome)) (by decide +kernel)
  simp only [Bool.and_eq_true, beq_iff_eq] at h2
  obtain ⟨⟨h3, h4⟩, h5, h6⟩ := h2
  obtain ⟨w2, h7⟩ := Option.isSome_iff_exists.1 h6
  exact ⟨w1, w2, es2, .backup .init (by decide +kernel) (fun _ _ => ⟨trivial, trivial⟩) h1, h3, h7, h5, by simp [es2], h4⟩

/-- The case of C118 is one for this theorem as well; the loader ends well there. -/
theorem C119_small_partial_case : ∃ w w' F fs, SmallReach id Any Any w ∧ Distinct F ∧
    (∀ p ∈ F, Any p.1 ∧ Any p.2 ∧ GoodSmall p) ∧ w.backup id (fun _ => 0) (F.map still) = some w' ∧
    w'.restore = some fs ∧ ∃ x d, fs x = some d := by
  obtain ⟨w, w', F, h1, h2, h3, h4, _, ⟨p, hp, _⟩, h6⟩ := C118_partial_case
  obtain ⟨fs, h7, h8⟩ := C118_partial (fun _ _ _ _ h => h) h1 h2 h3 h4 h6
  exact ⟨w, w', F, fs, h1, h2, h3, h4, h7, p.1, p.2, (h8 _ _).2 hp⟩

/-- C119 does not hold for small files after a backup that was given up: the loader takes what it finds in the packs of
the checkpoint before, also when the file is listed under a smaller number.  Here 101 files have the contents 1 in
backup 1, the contents 2 in backup 2, which is given up after its packs were uploaded, and the contents 1 again in
backup 3; the restored directory has the contents 2. -/
theorem C119_violated : ∃ w1 w2 w3 k fs, SmallWorld.init.backup id (fun _ => 0) ((files 1 0 101).map still) = some w1 ∧
    w1.abandon id (fun _ => 0) ((files 2 0 101).map still) k = some w2 ∧
    w2.backup id (fun _ => 0) ((files 1 0 101).map still) = some w3 ∧ w3.restore = some fs ∧
    (nm 0, [1, 0]) ∈ files 1 0 101 ∧ fs (nm 0) = some [2, 0] := by
  have hl : ∀ c, sumsMax < (files c 0 101).length := by
    intro c
    simp [files, sumsMax]
  obtain ⟨w1, h1, n1, t1, _⟩ := backup_is (H := id) (w := SmallWorld.init) (n := 0) (T := []) (garb := fun _ => 0)
    (t := sums (files 1 0 100) 1) rfl rfl (files_good (by omega)) (hl 1) (by decide +kernel)
  obtain ⟨w2, k, h2, n2, t2, u2⟩ := abandon_is (H := id) (F := files 2 0 101) (garb := fun _ => 0) n1 t1
    (files_good (by omega)) (hl 2)
  obtain ⟨w3, h3, n3, t3, u3, o3⟩ := backup_is (H := id) (F := files 1 0 101) (garb := fun _ => 0)
    (t := sums (files 1 0 100) 1) n2 t2 (files_good (by omega)) (hl 1) (by decide +kernel)
  rw [← o3 (0 + 1 + 1) (by omega)] at u2
  have hf : (files 2 0 101).filter (chg id (0 + 1 + 1) (sums (files 1 0 100) 1)) = files 2 0 101 := by decide +kernel
  rw [hf] at u2
  have hw : ((sums (files 1 0 100) 1).filter (fun e => decide (e.ck < 0 + 1 + 1 + 1))).map Entry.name
      = (files 1 0 100).map Prod.fst := by decide +kernel
  have hwl : ((files 1 0 100).map Prod.fst).length = 100 := by simp [files]
  have hwf : wanted ((files 1 0 100).map Prod.fst) (files 2 0 101) = files 2 0 100 := by decide +kernel
  have hr : w3.restore = some ((files 2 0 100).foldl (fun fs x => fs.put x.1 x.2)
      (((files 1 0 101).filter (chg id (0 + 1 + 1 + 1) (sums (files 1 0 100) 1))).foldl (fun fs x => fs.put x.1 x.2)
        Fs.empty)) := by
    unfold SmallWorld.restore
    rw [n3, t3, loadOwn_eq _ _ _ u3, hw]
    simp only
    rw [if_neg (by decide +kernel)]
    unfold loadSmall
    rw [if_neg (by omega), if_neg (by simp [files])]
    rw [show 0 + 1 + 1 + 1 - 1 = 0 + 1 + 1 from rfl, loadPacks_eq _ _ _ _ 0 (by omega) u2, hwf, hwl]
    have h100 : (files 2 0 100).length = 100 := by simp [files]
    simp only [h100, Nat.sub_zero, Nat.min_self, Nat.zero_add, Nat.lt_irrefl, if_false]
    rw [List.take_of_length_le (by omega)]
  refine ⟨w1, w2, w3, k, _, h1, h2, h3, hr, by simp [files, List.range'], ?_⟩
  refine foldl_put_new _ _ _ _ ?_ (by simp [files, List.range'])
  intro d hd
  exact (distinct_files (c := 2) (a := 0) (n := 100) (by omega)).func hd (by simp [files, List.range'])

end Verif.S3Backup
