import Verif.S3Backup.PackProofs
import Verif.S3Backup.Sums

/-! # Backups of small files, and their restoring -/

namespace Verif.S3Backup

/-- A small file that does not change during the backup. -/
def still (p : Bytes × Bytes) : SmallFile := ⟨p.1, p.2.length, some p.2, some p.2⟩

/-- A small file as the scan can meet it: shorter than the threshold (src/s3/checkpoint.c:612), with an ASCII path that
fits `pathbuf` (src/s3/checkpoint.c:330). -/
def GoodSmall (p : Bytes × Bytes) : Prop :=
  p.2.length < smallThreshold ∧ p.1.length ≤ 2048 ∧ ∀ b ∈ p.1, b ≠ 0 ∧ b < 128

/-- The entry of a file. -/
def ent (H : Bytes → Bytes) (n : Nat) (T : List Entry) (p : Bytes × Bytes) : Entry := (entryOf H n T p.1 p.2).1

/-- Is the file uploaded? -/
def chg (H : Bytes → Bytes) (n : Nat) (T : List Entry) (p : Bytes × Bytes) : Bool := (entryOf H n T p.1 p.2).2

theorem ent_name {H : Bytes → Bytes} {n : Nat} {T : List Entry} {p : Bytes × Bytes} : (ent H n T p).name = p.1 := by
  unfold ent entryOf
  split
  · rfl
  · split <;> rfl

theorem ent_changed {H : Bytes → Bytes} {n : Nat} {T : List Entry} {p : Bytes × Bytes} (h : chg H n T p = true) :
    ent H n T p = ⟨p.1, H p.2, n⟩ := by
  unfold chg entryOf at h
  unfold ent entryOf
  split at h
  · rfl
  · split at h
    · cases h
    · rename_i hn
      simp only [if_neg hn]

theorem ent_unchanged {H : Bytes → Bytes} {n : Nat} {T : List Entry} {p : Bytes × Bytes} (h : chg H n T p = false) :
    ∃ e ∈ T, e.name = p.1 ∧ e.sum = H p.2 ∧ ent H n T p = ⟨p.1, H p.2, e.ck⟩ := by
  unfold chg entryOf at h
  unfold ent entryOf
  split at h
  · cases h
  · rename_i e he
    split at h
    · rename_i hs
      refine ⟨e, List.mem_of_find?_eq_some he, ?_, hs, ?_⟩
      · have := List.find?_some he
        simpa using this
      · simp only [if_pos hs]
    · cases h

theorem readSmall_still {garb : Nat → UInt8} (p : Bytes × Bytes) : readSmall garb (still p) = some p.2 := by
  simp [readSmall, still]

theorem writeDatas_still {garb : Nat → UInt8} : ∀ (ps : List (Bytes × Bytes)) (off : Nat) (file : Bytes),
    ∃ out, writeDatas garb (ps.map still) off file = some out
  | [], _, file => ⟨file, rfl⟩
  | p :: ps, off, file => by
    simp only [List.map_cons, writeDatas, readSmall_still]
    exact writeDatas_still ps _ _

theorem flushSmall_still (garb : Nat → UInt8) (ps : List (Bytes × Bytes)) :
    ∃ out, flushSmall garb (ps.map still) = some out := by
  unfold flushSmall
  exact writeDatas_still ps _ _

/-- The length of a pack of these files. -/
def packLen : List (Bytes × Bytes) → Nat
  | [] => 4
  | p :: ps => 12 + (p.1.length + 1) + p.2.length + packLen ps

theorem packLen_append (ps : List (Bytes × Bytes)) (p : Bytes × Bytes) :
    packLen (ps ++ [p]) = packLen ps + (12 + (p.1.length + 1) + p.2.length) := by
  induction ps with
  | nil => simp [packLen]; omega
  | cons q ps ih =>
    simp only [List.cons_append, packLen, ih]
    omega

theorem packLen_eq (garb : Nat → UInt8) (ps : List (Bytes × Bytes)) :
    4 + 12 * ps.length + namesLen (ps.map still) + (dataBytes garb (ps.map still)).length = packLen ps := by
  induction ps with
  | nil => rfl
  | cons p ps ih =>
    simp only [List.map_cons, namesLen, dataBytes, readSmall_still, Option.getD_some, List.length_append, packLen,
      List.length_cons]
    simp only [still]
    omega

/-- The pack of files that stay as they are is as long as `packLen` says and gives them back. -/
theorem flush_still {garb : Nat → UInt8} {ps : List (Bytes × Bytes)} {out : Bytes}
    (h : flushSmall garb (ps.map still) = some out) (hg : ∀ p ∈ ps, ∀ b ∈ p.1, b ≠ 0 ∧ b < 128)
    (hl : packLen ps < 2147483648) : out.length = packLen ps ∧ unpack out = some ps := by
  have hlen : out.length = packLen ps := by
    rw [flushSmall_eq h, ← packLen_eq garb ps]
    simp [intBytes_length, tableBytes_length, nameBytes_length]
    omega
  refine ⟨hlen, ?_⟩
  rw [unpack_flushSmall h _ (by omega)]
  · rw [List.map_map]
    congr 1
    conv => rhs; rw [← List.map_id ps]
    refine List.map_congr_left fun p _ => ?_
    show ((still p).name, (readSmall garb (still p)).getD []) = p
    rw [readSmall_still]
    rfl
  · intro f hf
    obtain ⟨p, hp, rfl⟩ := List.mem_map.1 hf
    exact hg p hp

/-- All packs taken apart. -/
def unpackAll : List Bytes → Option (List (Bytes × Bytes))
  | [] => some []
  | p :: ps =>
    match unpack p, unpackAll ps with
    | some l, some r => some (l ++ r)
    | _, _ => none

theorem unpackAll_append : ∀ (ps : List Bytes) (p : Bytes) (l r : List (Bytes × Bytes)), unpackAll ps = some l →
    unpack p = some r → unpackAll (ps ++ [p]) = some (l ++ r)
  | [], p, l, r, h, hp => by
    cases h
    simp [unpackAll, hp]
  | q :: ps, p, l, r, h, hp => by
    simp only [unpackAll] at h
    split at h
    · rename_i a b ha hb
      cases h
      simp [List.cons_append, unpackAll, ha, unpackAll_append ps p b r hb hp]
    · cases h

/-- The state of the scan after the files `done`. -/
structure SInv (H : Bytes → Bytes) (n : Nat) (T : List Entry) (done : List (Bytes × Bytes)) (s : Scan) : Prop where
  sums : s.tmp ++ s.buf = done.map (ent H n T)
  full : s.buf.length ≤ sumsMax
  whole : sumsMax ∣ s.tmp.length
  pend : ∃ pend l, s.names = pend.map still ∧ unpackAll s.packs = some l ∧ l ++ pend = done.filter (chg H n T)
    ∧ s.total = packLen pend ∧ s.total ≤ totalThreshold
  short : ∀ p ∈ s.packs, p.length ≤ totalThreshold

theorem SInv.init {H : Bytes → Bytes} {n : Nat} {T : List Entry} : SInv H n T [] Scan.init :=
  ⟨rfl, by decide, ⟨0, rfl⟩, ⟨[], [], rfl, rfl, rfl, rfl, by decide⟩, fun _ h => by cases h⟩

theorem filter_good {done : List (Bytes × Bytes)} {f : Bytes × Bytes → Bool} {l pend : List (Bytes × Bytes)}
    (hg : ∀ p ∈ done, GoodSmall p) (h : l ++ pend = done.filter f) : ∀ p ∈ pend, GoodSmall p := by
  intro p hp
  have : p ∈ done.filter f := by rw [← h]; simp [hp]
  exact hg p (List.mem_filter.1 this).1

theorem SInv.flush {H : Bytes → Bytes} {garb : Nat → UInt8} {n : Nat} {T : List Entry} {done : List (Bytes × Bytes)}
    {s : Scan} (h : SInv H n T done s) (hg : ∀ p ∈ done, GoodSmall p) :
    ∃ s', s.flush garb = some s' ∧ SInv H n T done s' ∧ s'.names = [] ∧ s'.total = 4 ∧ s'.tmp = s.tmp
      ∧ s'.buf = s.buf := by
  obtain ⟨pend, l, h1, h2, h3, h4, h5⟩ := h.pend
  obtain ⟨out, ho⟩ := flushSmall_still garb pend
  have hgp := filter_good hg h3
  have hf := flush_still ho (fun p hp => (hgp p hp).2.2) (by unfold totalThreshold at h5; omega)
  have hfl : s.flush garb = some { s with packs := s.packs ++ [out], names := [], total := 4 } := by
    unfold Scan.flush
    rw [h1, ho]
  refine ⟨_, hfl, ?_, rfl, rfl, rfl, rfl⟩
  refine ⟨h.sums, h.full, h.whole, ⟨[], l ++ pend, rfl, unpackAll_append _ _ _ _ h2 hf.2, by simpa using h3, rfl,
    by simp [totalThreshold]⟩, ?_⟩
  intro p hp
  rcases List.mem_append.1 hp with hp | hp
  · exact h.short p hp
  · rw [List.mem_singleton.1 hp, hf.1]
    omega

theorem SInv.store {H : Bytes → Bytes} {n : Nat} {T : List Entry} {done : List (Bytes × Bytes)} {s : Scan}
    (h : SInv H n T done s) (p : Bytes × Bytes) :
    (s.store (ent H n T p)).tmp ++ (s.store (ent H n T p)).buf = (done ++ [p]).map (ent H n T)
      ∧ (s.store (ent H n T p)).buf.length ≤ sumsMax ∧ sumsMax ∣ (s.store (ent H n T p)).tmp.length
      ∧ (s.store (ent H n T p)).buf ≠ [] := by
  have hs := h.sums
  have hf := h.full
  unfold Scan.store
  split
  · rename_i hl
    refine ⟨by simp [← hs], by simp [sumsMax], ?_, by simp⟩
    rw [List.length_append, hl]
    exact Nat.dvd_add h.whole (Nat.dvd_refl _)
  · refine ⟨by simp [← hs], by simp; omega, h.whole, by simp⟩

theorem SInv.step {H : Bytes → Bytes} {garb : Nat → UInt8} {n : Nat} {T : List Entry} {done : List (Bytes × Bytes)}
    {s : Scan} (h : SInv H n T done s) (hg : ∀ q ∈ done, GoodSmall q) (p : Bytes × Bytes) (hp : GoodSmall p) :
    ∃ s', s.accumulate H garb n T (still p) = some s' ∧ SInv H n T (done ++ [p]) s' ∧ s'.buf ≠ [] := by
  obtain ⟨k1, k2, k3, k4⟩ := h.store p
  unfold Scan.accumulate
  have e1 : (still p).atSum = some p.2 := rfl
  have e2 : (entryOf H n T (still p).name p.2).1 = ent H n T p := rfl
  have e3 : (entryOf H n T (still p).name p.2).2 = chg H n T p := rfl
  simp only [e1, e2, e3]
  generalize hs2 : s.store (ent H n T p) = s2 at *
  have hpk : s2.packs = s.packs ∧ s2.names = s.names ∧ s2.total = s.total := by
    rw [← hs2]
    unfold Scan.store
    split <;> exact ⟨rfl, rfl, rfl⟩
  obtain ⟨q1, q2, q3⟩ := hpk
  by_cases hc : chg H n T p = true
  · rw [if_pos hc]
    have hreq : 12 + ((still p).name.length + 1) + (still p).size = 12 + (p.1.length + 1) + p.2.length := rfl
    rw [hreq]
    have hsmall : 4 + (12 + (p.1.length + 1) + p.2.length) ≤ totalThreshold := by
      have := hp.1
      have := hp.2.1
      unfold smallThreshold at *
      unfold totalThreshold
      omega
    split
    · -- a full pack is written first
      rename_i heq
      split at heq
      · obtain ⟨s3, hs3, _⟩ := SInv.flush (garb := garb) h hg
        exfalso
        unfold Scan.flush at hs3 heq
        rw [q2] at heq
        split at heq
        · rename_i hx
          rw [hx] at hs3
          cases hs3
        · cases heq
      · cases heq
    · rename_i s4 heq
      refine ⟨_, rfl, ?_, ?_⟩
      · split at heq
        · -- a full pack is written first
          obtain ⟨pend, l, h1, h2, h3, h4, h5⟩ := h.pend
          obtain ⟨out, ho⟩ := flushSmall_still garb pend
          have hgp := filter_good hg h3
          have hf := flush_still ho (fun p hp => (hgp p hp).2.2) (by unfold totalThreshold at h5; omega)
          unfold Scan.flush at heq
          rw [q2, h1, ho] at heq
          cases heq
          refine ⟨k1, k2, k3, ⟨[p], l ++ pend, rfl, ?_, ?_, ?_, ?_⟩, ?_⟩
          · rw [q1]
            exact unpackAll_append _ _ _ _ h2 hf.2
          · rw [h3, List.filter_append]
            simp [hc]
          · simp only [packLen]
            omega
          · exact hsmall
          · intro x hx
            rw [q1] at hx
            rcases List.mem_append.1 hx with hx | hx
            · exact h.short x hx
            · rw [List.mem_singleton.1 hx, hf.1]
              omega
        · rename_i hle
          cases heq
          obtain ⟨pend, l, h1, h2, h3, h4, h5⟩ := h.pend
          refine ⟨k1, k2, k3, ⟨pend ++ [p], l, ?_, ?_, ?_, ?_, ?_⟩, ?_⟩
          · simp [q2, h1]
          · rw [q1]
            exact h2
          · rw [← List.append_assoc, h3, List.filter_append]
            simp [hc]
          · rw [packLen_append, q3, h4]
          · simp only
            omega
          · rw [q1]
            exact h.short
      · split at heq
        · unfold Scan.flush at heq
          split at heq
          · cases heq
          · cases heq
            exact k4
        · cases heq
          exact k4
  · rw [if_neg hc]
    have hc' : chg H n T p = false := by simpa using hc
    refine ⟨s2, rfl, ⟨k1, k2, k3, ?_, by rw [q1]; exact h.short⟩, k4⟩
    obtain ⟨pend, l, h1, h2, h3, h4, h5⟩ := h.pend
    refine ⟨pend, l, by rw [q2, h1], by rw [q1]; exact h2, ?_, by rw [q3]; exact h4, by rw [q3]; exact h5⟩
    rw [h3, List.filter_append]
    simp [hc']

theorem SInv.all {H : Bytes → Bytes} {garb : Nat → UInt8} {n : Nat} {T : List Entry} :
    ∀ (ps done : List (Bytes × Bytes)) (s : Scan), SInv H n T done s → (∀ q ∈ done, GoodSmall q) →
    (∀ q ∈ ps, GoodSmall q) → (done ≠ [] → s.buf ≠ []) →
    ∃ s', Scan.all H garb n T (ps.map still) s = some s' ∧ SInv H n T (done ++ ps) s' ∧ (done ++ ps ≠ [] → s'.buf ≠ [])
  | [], done, s, h, _, _, hb => ⟨s, rfl, by simpa using h, by simpa using hb⟩
  | p :: ps, done, s, h, hd, hg, _ => by
    obtain ⟨s2, e2, h2, b2⟩ := h.step (garb := garb) hd p (hg p (by simp))
    obtain ⟨s3, e3, h3, b3⟩ := SInv.all ps (done ++ [p]) s2 h2
      (by
        intro q hq
        rcases List.mem_append.1 hq with hq | hq
        · exact hd q hq
        · rw [List.mem_singleton.1 hq]
          exact hg p (by simp))
      (fun q hq => hg q (by simp [hq])) (fun _ => b2)
    refine ⟨s3, ?_, by simpa using h3, by simpa using b3⟩
    simp only [List.map_cons, Scan.all, e2]
    exact e3

/-- What a backup of files that stay as they are leaves: the packs give back the changed files, none is longer than the
threshold; the checksums are those of all files but the last ones (at most `sumsMax`). -/
theorem backupSmall_spec {H : Bytes → Bytes} {garb : Nat → UInt8} {n : Nat} {T t : List Entry}
    {ps : List (Bytes × Bytes)} {packs : List Bytes} (hg : ∀ q ∈ ps, GoodSmall q)
    (h : backupSmall H garb n T (ps.map still) = some (t, packs)) :
    unpackAll packs = some (ps.filter (chg H n T)) ∧ (∀ p ∈ packs, p.length ≤ totalThreshold) ∧
    ∃ lost, t ++ lost = ps.map (ent H n T) ∧ 0 < lost.length ∧ lost.length ≤ sumsMax ∧ sumsMax ∣ t.length := by
  obtain ⟨s, e, hs, hb⟩ := SInv.all (garb := garb) ps [] Scan.init (SInv.init (H := H) (n := n) (T := T))
    (fun _ h => by cases h) hg (fun h => absurd rfl h)
  simp only [List.nil_append] at hs hb
  obtain ⟨s', e', hs', n', _, t', b'⟩ := hs.flush (garb := garb) hg
  unfold backupSmall at h
  rw [e] at h
  simp only [e'] at h
  split at h
  · cases h
  · rename_i hne
    cases h
    obtain ⟨pend, l, h1, h2, h3, _⟩ := hs'.pend
    have hp : pend = [] := by
      rw [n'] at h1
      simpa using h1.symm
    subst hp
    refine ⟨by rw [h2, ← h3]; simp, hs'.short, s'.buf, hs'.sums, ?_, hs'.full, hs'.whole⟩
    have hps : ps ≠ [] := by
      rintro rfl
      have := hs'.sums
      simp only [List.map_nil, List.append_eq_nil_iff] at this
      exact hne this.1
    rw [b']
    exact List.length_pos_iff.2 (hb hps)

end Verif.S3Backup
