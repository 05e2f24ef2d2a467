import Verif.S3Backup.SmallRestore

/-! # Small files that are not restored -/

namespace Verif.S3Backup

section
variable {H : Bytes → Bytes} {N C : Bytes → Prop}

/-- A backup of more files than the buffer of checksums holds ends well; which checksums it leaves. -/
theorem backup_ok {w : SmallWorld} {F : List (Bytes × Bytes)} {garb : Nat → UInt8} (hg : ∀ p ∈ F, GoodSmall p)
    (hl : sumsMax < F.length) :
    ∃ ps, w.backup H garb (F.map still) = some ⟨w.num + 1,
        (F.map (ent H (w.num + 1) w.table)).take (sumsMax * ((F.length - 1) / sumsMax)),
        fun k => if k = w.num + 1 then ps else w.packs k⟩
      ∧ backupSmall H garb (w.num + 1) w.table (F.map still) = some
        ((F.map (ent H (w.num + 1) w.table)).take (sumsMax * ((F.length - 1) / sumsMax)), ps)
      ∧ unpackAll ps = some (F.filter (chg H (w.num + 1) w.table)) := by
  have hok : ∃ r, backupSmall H garb (w.num + 1) w.table (F.map still) = some r := by
    obtain ⟨s, e, hs, hb⟩ := SInv.all (garb := garb) F [] Scan.init
      (SInv.init (H := H) (n := w.num + 1) (T := w.table)) (fun _ h => by cases h) hg (fun h => absurd rfl h)
    simp only [List.nil_append] at hs hb
    obtain ⟨s', e', hs', n', _, t', b'⟩ := hs.flush (garb := garb) hg
    unfold backupSmall
    rw [e]
    simp only [e']
    have hne : s'.tmp ≠ [] := by
      intro h0
      have h1 := congrArg List.length hs'.sums
      have h2 := hs'.full
      rw [h0] at h1
      simp at h1
      omega
    rw [if_neg hne]
    exact ⟨_, rfl⟩
  obtain ⟨⟨t, ps⟩, hr⟩ := hok
  obtain ⟨h1, _, lost, h3, h4, h5, k, h6⟩ := backupSmall_spec hg hr
  have hlen := congrArg List.length h3
  rw [List.length_append, List.length_map, h6] at hlen
  have hk : (F.length - 1) / sumsMax = k := by
    unfold sumsMax at *
    omega
  have ht : t = (F.map (ent H (w.num + 1) w.table)).take (sumsMax * ((F.length - 1) / sumsMax)) := by
    rw [hk, ← h6, ← h3]
    simp
  refine ⟨ps, ?_, ?_, h1⟩
  · unfold SmallWorld.backup
    rw [hr, ht]
  · rw [hr, ht]

/-- The same for a state of which the number and the list are known. -/
theorem backup_is {w : SmallWorld} {n : Nat} {T t : List Entry} {F : List (Bytes × Bytes)} {garb : Nat → UInt8}
    (hn : w.num = n) (hT : w.table = T) (hg : ∀ p ∈ F, GoodSmall p) (hl : sumsMax < F.length)
    (ht : (F.map (ent H (n + 1) T)).take (sumsMax * ((F.length - 1) / sumsMax)) = t) :
    ∃ w', w.backup H garb (F.map still) = some w' ∧ w'.num = n + 1 ∧ w'.table = t
      ∧ unpackAll (w'.packs (n + 1)) = some (F.filter (chg H (n + 1) T)) ∧ ∀ k, k ≠ n + 1 → w'.packs k = w.packs k := by
  obtain ⟨ps, h1, _, h2⟩ := backup_ok (H := H) (w := w) (garb := garb) hg hl
  rw [hn, hT, ht] at h1
  rw [hn, hT] at h2
  refine ⟨_, h1, rfl, rfl, ?_, ?_⟩
  · simp only [if_true]
    exact h2
  · intro k hk
    simp only [if_neg hk]

/-- A backup given up after all its packs. -/
theorem abandon_is {w : SmallWorld} {n : Nat} {T : List Entry} {F : List (Bytes × Bytes)} {garb : Nat → UInt8}
    (hn : w.num = n) (hT : w.table = T) (hg : ∀ p ∈ F, GoodSmall p) (hl : sumsMax < F.length) :
    ∃ w' j, w.abandon H garb (F.map still) j = some w' ∧ w'.num = n + 1 ∧ w'.table = T
      ∧ unpackAll (w'.packs (n + 1)) = some (F.filter (chg H (n + 1) T)) := by
  obtain ⟨ps, _, h1, h2⟩ := backup_ok (H := H) (w := w) (garb := garb) hg hl
  have hab : w.abandon H garb (F.map still) ps.length = some ⟨w.num + 1, w.table,
      fun j => if j = w.num + 1 then ps.take ps.length else w.packs j⟩ := by
    unfold SmallWorld.abandon
    rw [h1]
  refine ⟨_, _, hab, by rw [hn], hT, ?_⟩
  rw [hn, hT] at h2
  simp only [hn, if_true, List.take_length]
  exact h2

/-- Where the restored files come from. -/
theorem restore_src {w : SmallWorld} {l l' : List (Bytes × Bytes)} {fs : Fs} {x d : Bytes}
    (h : unpackAll (w.packs w.num) = some l) (h' : unpackAll (w.packs (w.num - 1)) = some l')
    (hr : w.restore = some fs) (hx : fs x = some d) :
    (x, d) ∈ l ∨ (∃ e ∈ w.table, e.name = x) ∧ (x, d) ∈ l' := by
  have own : ∀ fs : Fs, some (l.foldl (fun fs x => fs.put x.1 x.2) Fs.empty) = some fs → fs x = some d →
      (x, d) ∈ l := by
    intro fs e hx
    cases e
    rcases foldl_put_sound _ _ _ _ hx with hx | hx
    · cases hx
    · exact hx
  unfold SmallWorld.restore at hr
  rw [loadOwn_eq _ _ _ h] at hr
  simp only at hr
  split at hr
  · cases hr
  · unfold loadSmall at hr
    split at hr
    · exact .inl (own _ hr hx)
    · split at hr
      · exact .inl (own _ hr hx)
      · rename_i hne
        rw [loadPacks_eq _ _ _ _ 0 (List.length_pos_iff.2 hne) h'] at hr
        simp only at hr
        split at hr
        · cases hr
        · cases hr
          rcases foldl_put_sound _ _ _ _ hx with hx | hx
          · exact .inl (own _ rfl hx)
          · obtain ⟨a, b⟩ := List.mem_filter.1 (List.mem_of_mem_take hx)
            refine .inr ⟨?_, a⟩
            have b : x ∈ (w.table.filter (fun e => decide (e.ck < w.num))).map Entry.name := by simpa using b
            obtain ⟨e, he, rfl⟩ := List.mem_map.1 b
            exact ⟨e, (List.mem_filter.1 he).1, rfl⟩

/-- A file that is neither uploaded nor listed is not restored. -/
theorem restore_lost {w w' : SmallWorld} {F : List (Bytes × Bytes)} {garb : Nat → UInt8} (hr : SmallReach H N C w)
    (hF : Distinct F) (hC : ∀ p ∈ F, N p.1 ∧ C p.2 ∧ GoodSmall p)
    (hb : w.backup H garb (F.map still) = some w') {p : Bytes × Bytes} (hp : p ∈ F)
    (hc : chg H (w.num + 1) w.table p = false) (hn : ∀ e ∈ w'.table, e.name ≠ p.1) :
    ∀ fs, w'.restore = some fs → fs p.1 = none := by
  intro fs hfs
  obtain ⟨O, h1, _⟩ := small_hinv (SmallReach.backup hr hF hC hb)
  obtain ⟨ps, t, lost, rfl, k1, k2, _⟩ := small_backup (fun p hp => (hC p hp).2.2) hb
  cases hx : fs p.1 with
  | none => rfl
  | some d =>
    rcases restore_src (by simp only [if_true]; exact k1) (h1 _) hfs hx with hl | ⟨⟨e, he, hen⟩, _⟩
    · obtain ⟨a, b⟩ := List.mem_filter.1 hl
      have hd : d = p.2 := hF.func a hp
      subst hd
      rw [hc] at b
      cases b
    · exact absurd hen (hn e he)

/-- The last small file of the scan is not restored when it has not changed. -/
theorem restore_last {w w' : SmallWorld} {G : List (Bytes × Bytes)} {p : Bytes × Bytes} {garb : Nat → UInt8}
    (hr : SmallReach H N C w) (hF : Distinct (G ++ [p])) (hC : ∀ q ∈ G ++ [p], N q.1 ∧ C q.2 ∧ GoodSmall q)
    (hb : w.backup H garb ((G ++ [p]).map still) = some w') (hc : chg H (w.num + 1) w.table p = false) :
    ∀ fs, w'.restore = some fs → fs p.1 = none := by
  refine restore_lost hr hF hC hb (by simp) hc ?_
  have hb' := hb
  unfold SmallWorld.backup at hb'
  split at hb'
  · cases hb'
  · rename_i t ps hs
    cases hb'
    obtain ⟨_, _, lost, h3, h4, _⟩ := backupSmall_spec (fun q hq => (hC q hq).2.2) hs
    intro e he hen
    -- the last entry is lost
    obtain ⟨a, ha⟩ : ∃ a, lost = a ++ [ent H (w.num + 1) w.table p] := by
      have h5 : lost ≠ [] := List.length_pos_iff.1 h4
      have h6 : (t ++ lost).getLast (by simp [h5]) = ent H (w.num + 1) w.table p := by
        simp only [h3, List.map_append, List.map_cons, List.map_nil]
        simp
      rw [List.getLast_append_of_ne_nil _ h5] at h6
      exact ⟨lost.dropLast, by rw [← h6]; exact (List.dropLast_concat_getLast h5).symm⟩
    have hnd : ((t ++ lost).map Entry.name).Nodup := by
      rw [h3, List.map_map]
      have : (G ++ [p]).map (Entry.name ∘ ent H (w.num + 1) w.table) = (G ++ [p]).map Prod.fst :=
        List.map_congr_left fun p _ => ent_name
      rw [this]
      exact hF
    rw [List.map_append, List.nodup_append] at hnd
    refine hnd.2.2 e.name (List.mem_map.2 ⟨e, he, rfl⟩) p.1 ?_ hen
    rw [ha]
    exact List.mem_map.2 ⟨ent H (w.num + 1) w.table p, by simp, ent_name⟩

/-- The loader fails when a listed file is older than the checkpoint before. -/
theorem restore_older {w : SmallWorld} (hr : SmallReach H N C w) {e : Entry} (he : e ∈ w.table)
    (ho : e.ck + 1 < w.num) : w.restore = none := by
  obtain ⟨O, h1, h2, h3, h4, h5, _⟩ := small_hinv hr
  have hb := (h2.src e he).1
  unfold SmallWorld.restore
  rw [loadOwn_eq _ _ _ (h1 w.num)]
  simp only
  split
  · rfl
  · unfold loadSmall
    rw [if_neg (by omega)]
    generalize hw : (w.table.filter (fun e => decide (e.ck < w.num))).map Entry.name = want
    have hin : e.name ∈ want := by
      rw [← hw]
      exact List.mem_map.2 ⟨e, List.mem_filter.2 ⟨he, by simp; omega⟩, rfl⟩
    have hne : want ≠ [] := by
      intro h0
      rw [h0] at hin
      cases hin
    have hwn : want.Nodup := by
      rw [← hw]
      exact List.Nodup.sublist (List.Sublist.map _ List.filter_sublist) h5
    rw [if_neg hne, loadPacks_eq _ _ _ _ 0 (List.length_pos_iff.2 hne) (h1 (w.num - 1))]
    simp only
    rw [if_pos]
    -- the name is not among those found
    have hd : (e.name :: (wanted want (O (w.num - 1))).map Prod.fst).Nodup := by
      rw [List.nodup_cons]
      refine ⟨?_, (h4 (w.num - 1)).filter _⟩
      intro hm
      obtain ⟨⟨x, d⟩, hy, hyn⟩ := List.mem_map.1 hm
      have hyn : x = e.name := hyn
      subst hyn
      exact h3 e he (w.num - 1) (by omega) d (List.mem_filter.1 hy).1
    have := List.Nodup.length_le_of_subset hd (l₂ := want) (by
      intro x hx
      rcases List.mem_cons.1 hx with rfl | hx
      · exact hin
      · obtain ⟨y, hy, rfl⟩ := List.mem_map.1 hx
        simpa using (List.mem_filter.1 hy).2)
    simp only [List.length_cons, List.length_map] at this
    omega
end

end Verif.S3Backup
