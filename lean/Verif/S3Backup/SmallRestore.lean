import Verif.S3Backup.History

/-! # What the loader restores of small files -/

namespace Verif.S3Backup

/-- The states reached by complete backups of small files whose names are in `N`, whose contents are in `C` and that
stay as they are during each backup. -/
inductive SmallReach (H : Bytes → Bytes) (N C : Bytes → Prop) : SmallWorld → Prop
  | init : SmallReach H N C SmallWorld.init
  | backup {w w' : SmallWorld} {F : List (Bytes × Bytes)} {garb : Nat → UInt8} : SmallReach H N C w → Distinct F →
      (∀ p ∈ F, N p.1 ∧ C p.2 ∧ GoodSmall p) → w.backup H garb (F.map still) = some w' → SmallReach H N C w'

section
variable {H : Bytes → Bytes} {N C : Bytes → Prop}

theorem small_backup {w w' : SmallWorld} {F : List (Bytes × Bytes)} {garb : Nat → UInt8}
    (hg : ∀ p ∈ F, GoodSmall p) (h : w.backup H garb (F.map still) = some w') :
    ∃ ps t lost, w' = ⟨w.num + 1, t, fun k => if k = w.num + 1 then ps else w.packs k⟩
      ∧ unpackAll ps = some (F.filter (chg H (w.num + 1) w.table))
      ∧ t ++ lost = F.map (ent H (w.num + 1) w.table) ∧ lost.length ≤ sumsMax := by
  unfold SmallWorld.backup at h
  split at h
  · cases h
  · rename_i t ps hb
    cases h
    obtain ⟨h1, _, lost, h3, _, h5, _⟩ := backupSmall_spec hg hb
    exact ⟨ps, t, lost, rfl, h1, h3, h5⟩

theorem Distinct.filter {F : List (Bytes × Bytes)} (h : Distinct F) (f : Bytes × Bytes → Bool) :
    Distinct (F.filter f) := List.Nodup.sublist (List.Sublist.map _ List.filter_sublist) h

/-- What holds between complete backups. -/
theorem small_hinv {w : SmallWorld} (h : SmallReach H N C w) :
    ∃ O, (∀ k, unpackAll (w.packs k) = some (O k)) ∧ HInv H C w.num w.table O ∧ Later w.table O
      ∧ (∀ k, Distinct (O k)) ∧ (w.table.map Entry.name).Nodup ∧ ∀ e ∈ w.table, N e.name := by
  induction h with
  | init =>
    exact ⟨fun _ => [], fun _ => rfl, ⟨fun e he => (by cases he), fun k x d d' h => (by cases h), fun _ _ => rfl,
      fun k x d h => (by cases h)⟩, fun e he => (by cases he), fun _ => List.nodup_nil, List.nodup_nil,
      fun e he => (by cases he)⟩
  | @backup w w' F garb _ hF hC hb ih =>
    obtain ⟨O, h1, h2, h3, h4, _⟩ := ih
    obtain ⟨ps, t, lost, rfl, k1, k2, _⟩ := small_backup (fun p hp => (hC p hp).2.2) hb
    have hsub : ∀ e ∈ t, ∃ p ∈ F, e = ent H (w.num + 1) w.table p := by
      intro e he
      have : e ∈ F.map (ent H (w.num + 1) w.table) := by
        rw [← k2]
        simp [he]
      obtain ⟨p, hp, hpe⟩ := List.mem_map.1 this
      exact ⟨p, hp, hpe.symm⟩
    refine ⟨fun k => if k = w.num + 1 then F.filter (chg H (w.num + 1) w.table) else O k, ?_, ?_, ?_, ?_, ?_, ?_⟩
    · intro k
      simp only
      split
      · exact k1
      · exact h1 k
    · refine h2.step hF (fun p hp => (hC p hp).2.1) (fun p hp => (List.mem_filter.1 hp).1) ?_
      intro e he
      obtain ⟨p, hp, hpe⟩ := hsub e he
      exact .inr ⟨p, hp, hpe, fun hc => List.mem_filter.2 ⟨hp, hc⟩⟩
    · exact Later.step h2 h3 hF (fun p hp => List.mem_filter.1 hp) hsub
    · intro k
      simp only
      split
      · exact hF.filter _
      · exact h4 k
    · have : (t ++ lost).map Entry.name = F.map Prod.fst := by
        rw [k2, List.map_map]
        exact List.map_congr_left fun p _ => ent_name
      rw [List.map_append] at this
      have hn : (t.map Entry.name ++ lost.map Entry.name).Nodup := by
        rw [this]
        exact hF
      exact (List.nodup_append.1 hn).1
    · intro e he
      obtain ⟨p, hp, rfl⟩ := hsub e he
      rw [ent_name]
      exact (hC p hp).1

theorem loadOwn_eq : ∀ (ps : List Bytes) (l : List (Bytes × Bytes)) (fs : Fs), unpackAll ps = some l →
    loadOwn ps fs = some (l.foldl (fun fs x => fs.put x.1 x.2) fs)
  | [], l, fs, h => by
    cases h
    rfl
  | p :: ps, l, fs, h => by
    simp only [unpackAll] at h
    split at h
    · rename_i a b ha hb
      cases h
      simp only [loadOwn, ha, List.foldl_append]
      exact loadOwn_eq ps b _ hb
    · cases h

/-- The files of the list that are wanted. -/
def wanted (want : List Bytes) (l : List (Bytes × Bytes)) : List (Bytes × Bytes) :=
  l.filter (fun x => want.contains x.1)

theorem loadPack_eq (want : List Bytes) : ∀ (l : List (Bytes × Bytes)) (fs : Fs) (r : Nat), r < want.length →
    loadPack want l (fs, r)
      = (((wanted want l).take (want.length - r)).foldl (fun fs x => fs.put x.1 x.2) fs,
        r + min (wanted want l).length (want.length - r))
  | [], fs, r, _ => by simp [loadPack, wanted]
  | (nm, d) :: l, fs, r, hr => by
    simp only [loadPack]
    by_cases hw : want.contains nm = true
    · have hf : wanted want ((nm, d) :: l) = (nm, d) :: wanted want l := by simp only [wanted, List.filter_cons, hw, if_true]
      rw [if_pos hw, hf]
      obtain ⟨k, hk⟩ : ∃ k, want.length - r = k + 1 := ⟨want.length - r - 1, by omega⟩
      rw [hk, List.take_succ_cons, List.foldl_cons, List.length_cons]
      split
      · have : k = 0 := by omega
        subst this
        simp
      · rw [loadPack_eq want l _ (r + 1) (by omega), show want.length - (r + 1) = k by omega]
        simp only [Prod.mk.injEq, true_and]
        omega
    · have hf : wanted want ((nm, d) :: l) = wanted want l := by
        simp only [wanted, List.filter_cons, if_neg hw]
      rw [if_neg hw, hf]
      exact loadPack_eq want l fs r hr

theorem wanted_append (want : List Bytes) (a b : List (Bytes × Bytes)) :
    wanted want (a ++ b) = wanted want a ++ wanted want b := by simp [wanted]

theorem loadPacks_eq (want : List Bytes) : ∀ (ps : List Bytes) (l : List (Bytes × Bytes)) (fs : Fs) (r : Nat),
    r < want.length → unpackAll ps = some l → loadPacks want ps (fs, r)
      = some (((wanted want l).take (want.length - r)).foldl (fun fs x => fs.put x.1 x.2) fs,
        r + min (wanted want l).length (want.length - r))
  | [], l, fs, r, _, h => by
    cases h
    simp [loadPacks, wanted]
  | p :: ps, l, fs, r, hr, h => by
    simp only [unpackAll] at h
    split at h
    · rename_i a b ha hb
      cases h
      simp only [loadPacks, ha]
      rw [loadPack_eq want a fs r hr]
      simp only
      split
      · rename_i hfull
        rw [wanted_append, List.take_append_of_le_length (by omega), List.length_append]
        congr 2
        omega
      · rename_i hnot
        rw [loadPacks_eq want ps b _ _ (by omega) hb, wanted_append, List.length_append, List.take_append,
          List.foldl_append]
        have e1 : want.length - (r + min (wanted want a).length (want.length - r))
            = want.length - r - (wanted want a).length := by omega
        rw [e1]
        congr 2
        omega
    · cases h

/-- What is restored of small files after a complete backup of `F`.  No file that is not in `F`, none with other
contents.  All of `F`, if all files that did not change are in the list of checksums and none of them is older than
the checkpoint before. -/
theorem small_restore {w w' : SmallWorld} {F : List (Bytes × Bytes)} {garb : Nat → UInt8} (hr : SmallReach H N C w)
    (hF : Distinct F) (hC : ∀ p ∈ F, N p.1 ∧ C p.2 ∧ GoodSmall p) (hinj : ∀ a b, C a → C b → H a = H b → a = b)
    (hb : w.backup H garb (F.map still) = some w') :
    (∀ fs, w'.restore = some fs → ∀ x d, fs x = some d → (x, d) ∈ F)
    ∧ ((∀ p ∈ F, chg H w'.num w.table p = false → ent H w'.num w.table p ∈ w'.table ∧ w'.num ≤ (ent H w'.num w.table p).ck + 1) →
      ∃ fs, w'.restore = some fs ∧ ∀ x d, (x, d) ∈ F → fs x = some d) := by
  obtain ⟨O, h1, h2, h3, h4, _⟩ := small_hinv hr
  obtain ⟨_, _, _, _, _, hnd, _⟩ := small_hinv (SmallReach.backup hr hF hC hb)
  obtain ⟨ps, t, lost, rfl, k1, k2, _⟩ := small_backup (fun p hp => (hC p hp).2.2) hb
  change (t.map Entry.name).Nodup at hnd
  have hsub : ∀ e ∈ t, ∃ p ∈ F, e = ent H (w.num + 1) w.table p := by
    intro e he
    have : e ∈ F.map (ent H (w.num + 1) w.table) := by
      rw [← k2]
      simp [he]
    obtain ⟨p, hp, hpe⟩ := List.mem_map.1 this
    exact ⟨p, hp, hpe.symm⟩
  have hck : ∀ p ∈ F, (ent H (w.num + 1) w.table p).ck ≤ w.num + 1 := by
    intro p _
    cases hc : chg H (w.num + 1) w.table p with
    | true =>
      rw [ent_changed hc]
      simp
    | false =>
      obtain ⟨y, hy, _, _, hye⟩ := ent_unchanged hc
      rw [hye]
      have := (h2.src y hy).2.1
      simp only
      omega
  have hany : t.any (fun e => decide (w.num + 1 < e.ck)) = false := by
    rw [List.any_eq_false]
    intro e he
    obtain ⟨p, hp, rfl⟩ := hsub e he
    have := hck p hp
    simp only [decide_eq_true_eq]
    omega
  generalize hwant : (t.filter (fun e => decide (e.ck < w.num + 1))).map Entry.name = want
  have hres : (⟨w.num + 1, t, fun k => if k = w.num + 1 then ps else w.packs k⟩ : SmallWorld).restore
      = loadSmall (fun k => if k = w.num + 1 then ps else w.packs k) (w.num + 1) want
        ((F.filter (chg H (w.num + 1) w.table)).foldl (fun fs x => fs.put x.1 x.2) Fs.empty) := by
    unfold SmallWorld.restore
    simp only [if_true, loadOwn_eq _ _ _ k1, hany, hwant]
    simp
  rw [hres]
  have hpk : (fun k => if k = w.num + 1 then ps else w.packs k) (w.num + 1 - 1) = w.packs w.num := by
    simp
  have hwn : want.Nodup := by
    rw [← hwant]
    exact List.Nodup.sublist (List.Sublist.map _ List.filter_sublist) hnd
  -- names that are wanted belong to unchanged files
  have hwf : ∀ x ∈ want, ∃ p ∈ F, p.1 = x ∧ chg H (w.num + 1) w.table p = false ∧ ent H (w.num + 1) w.table p ∈ t := by
    intro x hx
    rw [← hwant] at hx
    obtain ⟨e, he, rfl⟩ := List.mem_map.1 hx
    obtain ⟨he1, he2⟩ := List.mem_filter.1 he
    obtain ⟨p, hp, rfl⟩ := hsub e he1
    refine ⟨p, hp, ent_name.symm, ?_, he1⟩
    cases hc : chg H (w.num + 1) w.table p with
    | false => rfl
    | true =>
      rw [ent_changed hc] at he2
      simp at he2
  -- the packs of the checkpoint before hold the right contents of wanted files
  have hold : ∀ x d, (x, d) ∈ wanted want (O w.num) → (x, d) ∈ F := by
    intro x d hx
    obtain ⟨hx1, hx2⟩ := List.mem_filter.1 hx
    have hx2 : x ∈ want := by simpa using hx2
    obtain ⟨p, hp, rfl, hc, _⟩ := hwf x hx2
    obtain ⟨y, hy, hyn, hys, hye⟩ := ent_unchanged hc
    obtain ⟨_, b2, _⟩ := h2.src y hy
    have : y.ck = w.num := by
      rcases Nat.lt_or_ge y.ck w.num with hlt | hge
      · exact absurd (by rw [hyn]; exact hx1) (h3 y hy w.num hlt d)
      · omega
    have hd : d = p.2 := by
      refine h2.content (o := []) hinj (hC p hp).2.1 (fun hx => by cases hx) ?_
      rw [hye]
      simp only
      rw [if_neg (by omega), this]
      exact hx1
    rw [hd]
    exact hp
  have hnew : ∀ x d, (x, d) ∈ F.filter (chg H (w.num + 1) w.table) → x ∉ want := by
    intro x d hx hxw
    obtain ⟨g1, g2⟩ := List.mem_filter.1 hx
    obtain ⟨p, hp, rfl, hc, _⟩ := hwf x hxw
    have : d = p.2 := hF.func g1 hp
    subst this
    rw [hc] at g2
    cases g2
  have hlen : (wanted want (O w.num)).length ≤ want.length := by
    have hd : ((wanted want (O w.num)).map Prod.fst).Nodup := (h4 w.num).filter _
    have := List.Nodup.length_le_of_subset hd (l₂ := want) (by
      intro x hx
      obtain ⟨y, hy, rfl⟩ := List.mem_map.1 hx
      simpa using (List.mem_filter.1 hy).2)
    simpa using this
  constructor
  · intro fs hfs x d hx
    unfold loadSmall at hfs
    have own : ∀ fs : Fs, some ((F.filter (chg H (w.num + 1) w.table)).foldl (fun fs x => fs.put x.1 x.2) Fs.empty) = some fs →
        fs x = some d → (x, d) ∈ F := by
      intro fs e hx
      cases e
      rcases foldl_put_sound _ _ _ _ hx with hx | hx
      · cases hx
      · exact (List.mem_filter.1 hx).1
    split at hfs
    · exact own fs hfs hx
    · split at hfs
      · exact own fs hfs hx
      · rename_i hne
        rw [hpk, loadPacks_eq want _ _ _ 0 (List.length_pos_iff.2 hne) (h1 w.num)] at hfs
        simp only at hfs
        split at hfs
        · cases hfs
        · cases hfs
          rcases foldl_put_sound _ _ _ _ hx with hx | hx
          · exact own _ rfl hx
          · exact hold x d (List.mem_of_mem_take hx)
  · intro hall
    change ∀ p ∈ F, chg H (w.num + 1) w.table p = false →
      ent H (w.num + 1) w.table p ∈ t ∧ w.num + 1 ≤ (ent H (w.num + 1) w.table p).ck + 1 at hall
    -- each unchanged file is in the packs of the checkpoint before
    have hin : ∀ p ∈ F, chg H (w.num + 1) w.table p = false → p ∈ O w.num ∧ p.1 ∈ want ∧ 1 ≤ w.num := by
      intro p hp hc
      obtain ⟨a1, a2⟩ := hall p hp hc
      obtain ⟨y, hy, hyn, hys, hye⟩ := ent_unchanged hc
      obtain ⟨b1, b2, d, b3, b4⟩ := h2.src y hy
      rw [hye] at a2
      simp only at a2
      have hyk : y.ck = w.num := by omega
      have hd : d = p.2 := by
        refine h2.content (o := []) hinj (hC p hp).2.1 (fun hx => by cases hx) ?_
        rw [hye]
        simp only
        rw [if_neg (by omega), ← hyn]
        exact b3
      refine ⟨?_, ?_, by omega⟩
      · rw [hyk, hyn, hd] at b3
        exact b3
      · rw [← hwant]
        refine List.mem_map.2 ⟨_, List.mem_filter.2 ⟨a1, ?_⟩, ent_name⟩
        rw [hye]
        simp only [decide_eq_true_eq]
        omega
    have own : (∀ p ∈ F, chg H (w.num + 1) w.table p = true) → ∀ x d, (x, d) ∈ F →
        (F.filter (chg H (w.num + 1) w.table)).foldl (fun fs x => fs.put x.1 x.2) Fs.empty x = some d := by
      intro hc x d hx
      exact foldl_put_new _ _ _ _ (fun d' hd' => hF.func (List.mem_filter.1 hd').1 hx)
        (List.mem_filter.2 ⟨hx, hc _ hx⟩)
    unfold loadSmall
    split
    · rename_i hnum
      refine ⟨_, rfl, own ?_⟩
      intro p hp
      cases hc : chg H (w.num + 1) w.table p with
      | true => rfl
      | false =>
        have := (hin p hp hc).2.2
        omega
    · split
      · rename_i hnil
        refine ⟨_, rfl, own ?_⟩
        intro p hp
        cases hc : chg H (w.num + 1) w.table p with
        | true => rfl
        | false =>
          have := (hin p hp hc).2.1
          rw [hnil] at this
          cases this
      · rename_i hne
        rw [hpk, loadPacks_eq want _ _ _ 0 (List.length_pos_iff.2 hne) (h1 w.num)]
        have hge : want.length ≤ (wanted want (O w.num)).length := by
          have := List.Nodup.length_le_of_subset hwn (l₂ := (wanted want (O w.num)).map Prod.fst) (by
            intro x hx
            obtain ⟨p, hp, rfl, hc, _⟩ := hwf x hx
            exact List.mem_map.2 ⟨p, List.mem_filter.2 ⟨(hin p hp hc).1, by simpa using hx⟩, rfl⟩)
          simpa using this
        simp only
        rw [if_neg (by omega), List.take_of_length_le (by omega)]
        refine ⟨_, rfl, ?_⟩
        intro x d hx
        cases hc : chg H (w.num + 1) w.table (x, d) with
        | true =>
          rw [foldl_put_old]
          · exact foldl_put_new _ _ _ _ (fun d' hd' => hF.func (List.mem_filter.1 hd').1 hx)
              (List.mem_filter.2 ⟨hx, hc⟩)
          · intro d' hd'
            have := (List.mem_filter.1 hd').2
            exact hnew x d (List.mem_filter.2 ⟨hx, hc⟩) (by simpa using this)
        | false =>
          obtain ⟨a1, a2, _⟩ := hin _ hx hc
          exact foldl_put_new _ _ _ _ (fun d' hd' => hF.func (hold x d' hd') hx)
            (List.mem_filter.2 ⟨a1, by simpa using a2⟩)
end

end Verif.S3Backup
