import Verif.S3Backup.History

/-! # What the loader restores -/

namespace Verif.S3Backup

/-! ## Files uploaded one by one -/

/-- The states reached by backups of files whose names are in `N` and whose contents are in `C`. -/
inductive BigReach (H : Bytes → Bytes) (N C : Bytes → Prop) (nw : Nat) : BigWorld → Prop
  | init : BigReach H N C nw BigWorld.init
  | backup {w w' : BigWorld} {F : List (Bytes × Bytes)} {es : List BigEv} : BigReach H N C nw w → Distinct F →
      (∀ p ∈ F, N p.1 ∧ C p.2) → w.backup H nw F es = some w' → BigReach H N C nw w'

theorem nodup_map {α β : Type} {f : α → β} : ∀ {l : List α}, l.Nodup → (∀ a ∈ l, ∀ b ∈ l, f a = f b → a = b) →
    (l.map f).Nodup
  | [], _, _ => List.nodup_nil
  | a :: l, h, hf => by
    rw [List.nodup_cons] at h
    rw [List.map_cons, List.nodup_cons]
    refine ⟨?_, nodup_map h.2 (fun x hx y hy => hf x (by simp [hx]) y (by simp [hy]))⟩
    intro hm
    obtain ⟨b, hb, hbe⟩ := List.mem_map.1 hm
    have := hf b (by simp [hb]) a (by simp) hbe
    subst this
    exact h.1 hb

section
variable {H : Bytes → Bytes} {N C : Bytes → Prop} {nw : Nat}

/-- What a backup leaves. -/
theorem big_backup {w w' : BigWorld} {F : List (Bytes × Bytes)} {es : List BigEv}
    (h : w.backup H nw F es = some w') :
    ∃ o t, w' = ⟨w.num + 1, t, fun k => if k = w.num + 1 then o else w.objs k⟩
      ∧ (∀ p ∈ o, p ∈ F ∧ chg H (w.num + 1) w.table p = true)
      ∧ (complete H nw w F es = false → t = w.table)
      ∧ (complete H nw w F es = true → (∀ e ∈ t, ∃ p ∈ F, e = ent H (w.num + 1) w.table p)
        ∧ (∀ p ∈ F, chg H (w.num + 1) w.table p = true → p ∈ o)
        ∧ (∀ e, t.count e ≤ (F.map (ent H (w.num + 1) w.table)).count e)
        ∧ ((∀ v, BigEv.restart v ∉ es) → ∀ p ∈ F, ent H (w.num + 1) w.table p ∈ t)) := by
  unfold BigWorld.backup at h
  split at h
  · cases h
  · rename_i s hs
    cases h
    have hb := binv_run (nr := ∀ v, BigEv.restart v ∉ es) es (binv_init nw F _) (fun hn => hn) hs
    refine ⟨s.objs, _, rfl, hb.objs, ?_, ?_⟩
    · intro hc
      unfold complete at hc
      rw [hs] at hc
      cases ho : s.out with
      | none => rfl
      | some t => simp [ho] at hc
    · intro hc
      unfold complete at hc
      rw [hs] at hc
      cases ho : s.out with
      | none => simp [ho] at hc
      | some t =>
        obtain ⟨a, b, c⟩ := hb.out t ho
        refine ⟨?_, c, a, ?_⟩
        · intro e he
          have h1 := List.count_pos_iff.2 (show e ∈ t from he)
          have h2 := a e
          have h3 : 0 < (F.map (ent H (w.num + 1) w.table)).count e := by omega
          obtain ⟨p, hp, hpe⟩ := List.mem_map.1 (List.count_pos_iff.1 h3)
          exact ⟨p, hp, hpe.symm⟩
        · intro hn p hp
          have h1 := b hn (ent H (w.num + 1) w.table p)
          have h2 := List.count_pos_iff.2 (List.mem_map.2 ⟨p, hp, rfl⟩ :
            ent H (w.num + 1) w.table p ∈ F.map (ent H (w.num + 1) w.table))
          have h3 : 0 < t.count (ent H (w.num + 1) w.table p) := by omega
          exact List.count_pos_iff.1 h3

theorem big_hinv {w : BigWorld} (h : BigReach H N C nw w) : HInv H C w.num w.table w.objs := by
  induction h with
  | init => exact ⟨fun e he => (by cases he), fun k x d d' h => (by cases h), fun _ _ => rfl, fun k x d h => (by cases h)⟩
  | @backup w w' F es _ hF hC hb ih =>
    obtain ⟨o, t, rfl, ho, h1, h2⟩ := big_backup hb
    refine ih.step hF (fun p hp => (hC p hp).2) (fun p hp => (ho p hp).1) ?_
    intro e he
    cases hc : complete H nw w F es with
    | false =>
      rw [h1 hc] at he
      exact .inl he
    | true =>
      obtain ⟨a, b, _⟩ := h2 hc
      obtain ⟨p, hp, hpe⟩ := a e he
      exact .inr ⟨p, hp, hpe, b p hp⟩

/-- The names in the list are not repeated. -/
theorem big_names {w : BigWorld} (h : BigReach H N C nw w) :
    (w.table.map Entry.name).Nodup ∧ ∀ e ∈ w.table, N e.name := by
  induction h with
  | init => exact ⟨List.nodup_nil, fun e he => (by cases he)⟩
  | @backup w w' F es _ hF hC hb ih =>
    obtain ⟨o, t, rfl, _, h1, h2⟩ := big_backup hb
    cases hc : complete H nw w F es with
    | false =>
      rw [h1 hc]
      exact ih
    | true =>
      obtain ⟨a, _, c, _⟩ := h2 hc
      have hn : (F.map (ent H (w.num + 1) w.table)).Nodup := by
        have : ((F.map (ent H (w.num + 1) w.table)).map Entry.name).Nodup := by
          have he : (F.map (ent H (w.num + 1) w.table)).map Entry.name = F.map Prod.fst := by
            rw [List.map_map]
            exact List.map_congr_left (fun p _ => ent_name)
          rw [he]
          exact hF
        exact List.Pairwise.of_map Entry.name (fun a b hab h => hab (by rw [h])) this
      have ht : t.Nodup := by
        rw [List.nodup_iff_count]
        intro e
        exact Nat.le_trans (c e) (List.nodup_iff_count.1 hn e)
      refine ⟨?_, ?_⟩
      · change (t.map Entry.name).Nodup
        refine nodup_map ht ?_
        intro e he e' he' hne
        obtain ⟨p, hp, rfl⟩ := a e he
        obtain ⟨p', hp', rfl⟩ := a e' he'
        rw [ent_name, ent_name] at hne
        have h2 : p.2 = p'.2 := hF.func (x := p.1) hp (by rw [hne]; exact hp')
        have : p = p' := Prod.ext hne h2
        rw [this]
      · intro e he
        obtain ⟨p, hp, rfl⟩ := a e he
        rw [ent_name]
        exact (hC p hp).1

theorem getObj_sound {objs : List (Bytes × Bytes)} {nm x d : Bytes} {fs : Fs} (h : getObj objs nm fs x = some d) :
    fs x = some d ∨ (x = nm ∧ (x, d) ∈ objs) := by
  unfold getObj at h
  cases hy : objs.find? (fun x => x.1 == nm) with
  | some y =>
    rw [hy] at h
    simp only [Fs.put] at h
    split at h
    · rename_i hx
      cases h
      have h1 := List.mem_of_find?_eq_some hy
      have h2 : y.1 = nm := by simpa using List.find?_some hy
      exact .inr ⟨hx, by rw [hx, ← h2]; exact h1⟩
    · exact .inl h
  | none =>
    rw [hy] at h
    exact .inl h

theorem getObj_other {objs : List (Bytes × Bytes)} {nm x : Bytes} {fs : Fs} (h : x ≠ nm) :
    getObj objs nm fs x = fs x := by
  unfold getObj
  cases objs.find? (fun x => x.1 == nm) with
  | some y => simp [Fs.put, h]
  | none => rfl

theorem getObj_found {objs : List (Bytes × Bytes)} {nm d : Bytes} {fs : Fs} (hf : ∀ d', (nm, d') ∈ objs → d' = d)
    (h : (nm, d) ∈ objs) : getObj objs nm fs nm = some d := by
  unfold getObj
  cases hy : objs.find? (fun x => x.1 == nm) with
  | some y =>
    have h1 := List.mem_of_find?_eq_some hy
    have h2 : y.1 = nm := by simpa using List.find?_some hy
    have h3 : y.2 = d := hf y.2 (by rw [← h2]; exact h1)
    simp [Fs.put, h3]
  | none =>
    have := List.find?_eq_none.1 hy (nm, d) h
    simp at this

theorem foldl_get_sound {objs : List (Bytes × Bytes)} : ∀ (l : List Entry) (fs : Fs) (x d : Bytes),
    l.foldl (fun fs e => getObj objs e.name fs) fs x = some d → fs x = some d ∨ ((∃ e ∈ l, e.name = x) ∧ (x, d) ∈ objs)
  | [], _, _, _, h => .inl h
  | e :: l, fs, x, d, h => by
    rw [List.foldl_cons] at h
    rcases foldl_get_sound l _ x d h with h | ⟨⟨e', he', hn⟩, h⟩
    · rcases getObj_sound h with h | ⟨h1, h2⟩
      · exact .inl h
      · exact .inr ⟨⟨e, by simp, h1.symm⟩, h2⟩
    · exact .inr ⟨⟨e', by simp [he'], hn⟩, h⟩

theorem foldl_get_other {objs : List (Bytes × Bytes)} : ∀ (l : List Entry) (fs : Fs) (x : Bytes),
    (∀ e ∈ l, e.name ≠ x) → l.foldl (fun fs e => getObj objs e.name fs) fs x = fs x
  | [], _, _, _ => rfl
  | e :: l, fs, x, h => by
    rw [List.foldl_cons, foldl_get_other l _ x (fun e' he' => h e' (by simp [he'])),
      getObj_other (fun hx => h e (by simp) hx.symm)]

theorem foldl_get_found {objs : List (Bytes × Bytes)} (l : List Entry) (fs : Fs) (e : Entry) (d : Bytes) (he : e ∈ l)
    (hf : ∀ d', (e.name, d') ∈ objs → d' = d) (hd : (e.name, d) ∈ objs) :
    l.foldl (fun fs e => getObj objs e.name fs) fs e.name = some d := by
  induction l generalizing fs with
  | nil => cases he
  | cons a l ih =>
    rw [List.foldl_cons]
    by_cases hl : ∃ e' ∈ l, e'.name = e.name
    · obtain ⟨e', he', hn⟩ := hl
      have ih' : ∀ (l : List Entry) (fs : Fs), (∃ e' ∈ l, e'.name = e.name) →
          l.foldl (fun fs e => getObj objs e.name fs) fs e.name = some d := by
        intro l
        induction l with
        | nil =>
          rintro _ ⟨_, h, _⟩
          cases h
        | cons b l ih2 =>
          intro fs h
          rw [List.foldl_cons]
          by_cases hl : ∃ e' ∈ l, e'.name = e.name
          · exact ih2 _ hl
          · rw [foldl_get_other l _ _ (fun x hx hxn => hl ⟨x, hx, hxn⟩)]
            obtain ⟨c, hc, hcn⟩ := h
            rcases List.mem_cons.1 hc with rfl | hc
            · rw [hcn]
              exact getObj_found hf hd
            · exact absurd ⟨c, hc, hcn⟩ hl
      exact ih' l _ ⟨e', he', hn⟩
    · rw [foldl_get_other l _ _ (fun x hx hxn => hl ⟨x, hx, hxn⟩)]
      rcases List.mem_cons.1 he with rfl | he
      · exact getObj_found hf hd
      · exact absurd ⟨e, he, rfl⟩ hl

theorem loadBig_sound {objs : Nat → List (Bytes × Bytes)} : ∀ (num : Nat) (dict : List Entry) (fs : Fs) (x d : Bytes),
    (∀ e ∈ dict, e.ck < num) → loadBig objs num dict fs x = some d →
    fs x = some d ∨ ∃ e ∈ dict, e.name = x ∧ (x, d) ∈ objs e.ck
  | 0, _, _, _, _, _, h => .inl h
  | 1, _, _, _, _, _, h => .inl h
  | n + 2, dict, fs, x, d, hk, h => by
    have here : ∀ fs' : Fs, fs' = (dict.filter (fun e => !(e.ck == n + 2) && !(e.ck < n + 1))).foldl
        (fun fs e => getObj (objs (n + 1)) e.name fs) fs → fs' x = some d →
        fs x = some d ∨ ∃ e ∈ dict, e.name = x ∧ (x, d) ∈ objs e.ck := by
      intro fs' e1 e2
      rw [e1] at e2
      rcases foldl_get_sound _ _ _ _ e2 with h | ⟨⟨e, he, hn⟩, h⟩
      · exact .inl h
      · obtain ⟨h1, h2⟩ := List.mem_filter.1 he
        have h3 := hk e h1
        simp only [Bool.and_eq_true, Bool.not_eq_true', decide_eq_false_iff_not] at h2
        have : e.ck = n + 1 := by omega
        exact .inr ⟨e, h1, hn, by rw [this]; exact h⟩
    simp only [loadBig] at h
    split at h
    · exact here _ rfl h
    · rcases loadBig_sound (n + 1) _ _ x d
        (fun e he => by
          obtain ⟨_, h2⟩ := List.mem_filter.1 he
          simp only [Bool.and_eq_true, decide_eq_true_eq] at h2
          exact h2.2) h with h | ⟨e, he, h⟩
      · exact here _ rfl h
      · exact .inr ⟨e, (List.mem_filter.1 he).1, h⟩

theorem loadBig_other {objs : Nat → List (Bytes × Bytes)} : ∀ (num : Nat) (dict : List Entry) (fs : Fs) (x : Bytes),
    (∀ e ∈ dict, e.name ≠ x) → loadBig objs num dict fs x = fs x
  | 0, _, _, _, _ => rfl
  | 1, _, _, _, _ => rfl
  | n + 2, dict, fs, x, h => by
    simp only [loadBig]
    split
    · exact foldl_get_other _ _ _ (fun e he => h e (List.mem_filter.1 he).1)
    · rw [loadBig_other (n + 1) _ _ x (fun e he => h e (List.mem_filter.1 he).1),
        foldl_get_other _ _ _ (fun e he => h e (List.mem_filter.1 he).1)]

theorem loadBig_found {objs : Nat → List (Bytes × Bytes)} : ∀ (num : Nat) (dict : List Entry) (fs : Fs) (e : Entry)
    (d : Bytes), (∀ e ∈ dict, e.ck < num) → e ∈ dict → 1 ≤ e.ck →
    (∀ e' ∈ dict, e'.name = e.name → e' = e) → (∀ d', (e.name, d') ∈ objs e.ck → d' = d) → (e.name, d) ∈ objs e.ck →
    loadBig objs num dict fs e.name = some d
  | 0, _, _, e, _, hk, he, _, _, _, _ => by have := hk e he; omega
  | 1, _, _, e, _, hk, he, h1, _, _, _ => by have := hk e he; omega
  | n + 2, dict, fs, e, d, hk, he, h1, hu, hf, hd => by
    have hke := hk e he
    simp only [loadBig]
    by_cases hc : e.ck = n + 1
    · have hin : e ∈ dict.filter (fun e => !(e.ck == n + 2) && !(e.ck < n + 1)) := by
        refine List.mem_filter.2 ⟨he, ?_⟩
        simp [hc]
      have hfold := foldl_get_found (objs := objs (n + 1)) _ fs e d hin (by rw [← hc]; exact hf) (by rw [← hc]; exact hd)
      split
      · exact hfold
      · rw [loadBig_other (n + 1)]
        · exact hfold
        · intro e' he' hn
          obtain ⟨h2, h3⟩ := List.mem_filter.1 he'
          have := hu e' h2 hn
          subst this
          simp [hc] at h3
    · have hin : e ∈ dict.filter (fun e => !(e.ck == n + 2) && e.ck < n + 1) := by
        refine List.mem_filter.2 ⟨he, ?_⟩
        simp
        omega
      split
      · rename_i hnil
        rw [hnil] at hin
        cases hin
      · exact loadBig_found (n + 1) _ _ e d
          (fun x hx => by
            obtain ⟨_, h2⟩ := List.mem_filter.1 hx
            simp only [Bool.and_eq_true, decide_eq_true_eq] at h2
            exact h2.2)
          hin h1 (fun e' he' hn => hu e' (List.mem_filter.1 he').1 hn) hf hd

/-- After a complete backup of `F` the loader ends without an exception, restores no file that is not in `F` and none
with other contents; it restores the changed files and those listed. -/
theorem big_restore {w w' : BigWorld} {F : List (Bytes × Bytes)} {es : List BigEv} (hr : BigReach H N C nw w)
    (hF : Distinct F) (hC : ∀ p ∈ F, N p.1 ∧ C p.2) (hinj : ∀ a b, C a → C b → H a = H b → a = b)
    (hb : w.backup H nw F es = some w') (hc : complete H nw w F es = true) :
    ∃ fs, w'.restore = some fs ∧ (∀ x d, fs x = some d → (x, d) ∈ F)
      ∧ ((∀ v, BigEv.restart v ∉ es) → ∀ x d, (x, d) ∈ F → fs x = some d) := by
  have hi := big_hinv hr
  have hi' := big_hinv (BigReach.backup hr hF hC hb)
  obtain ⟨o, t, rfl, ho, _, h2⟩ := big_backup hb
  obtain ⟨h3, h4, _, h5⟩ := h2 hc
  change HInv H C (w.num + 1) t (fun k => if k = w.num + 1 then o else w.objs k) at hi'
  have hany : t.any (fun e => decide (w.num + 1 < e.ck)) = false := by
    rw [List.any_eq_false]
    intro e he
    have := (hi'.src e he).2.1
    simp only [decide_eq_true_eq]
    omega
  have hdict : ∀ e ∈ t.filter (fun e => decide (e.ck < w.num + 1)), e.ck < w.num + 1 := by
    intro e he
    simpa using (List.mem_filter.1 he).2
  have hcont : ∀ p ∈ F, ∀ d, (p.1, d) ∈ (fun k => if k = w.num + 1 then o else w.objs k) (ent H (w.num + 1) w.table p).ck →
      d = p.2 := by
    intro p hp d hd
    exact hi.content hinj (hC p hp).2 (fun hx => hF.func (ho _ hx).1 hp) hd
  have hres : (⟨w.num + 1, t, fun k => if k = w.num + 1 then o else w.objs k⟩ : BigWorld).restore
      = some (loadBig (fun k => if k = w.num + 1 then o else w.objs k) (w.num + 1)
        (t.filter (fun e => decide (e.ck < w.num + 1))) (o.foldl (fun fs x => fs.put x.1 x.2) Fs.empty)) := by
    unfold BigWorld.restore
    simp only [hany]
    simp
  refine ⟨_, hres, ?_, ?_⟩
  · intro x d hx
    rcases loadBig_sound _ _ _ _ _ hdict hx with hx | ⟨e, he, hn, hd⟩
    · rcases foldl_put_sound _ _ _ _ hx with hx | hx
      · cases hx
      · exact (ho _ hx).1
    · obtain ⟨p, hp, rfl⟩ := h3 e (List.mem_filter.1 he).1
      rw [ent_name] at hn
      subst hn
      rw [hcont p hp d hd]
      exact hp
  · intro hn x d hx
    cases hch : chg H (w.num + 1) w.table (x, d) with
    | true =>
      rw [loadBig_other]
      · exact foldl_put_new _ _ _ _ (fun d' hd' => hF.func (ho _ hd').1 hx) (h4 _ hx hch)
      · intro e he hne
        obtain ⟨p, hp, rfl⟩ := h3 e (List.mem_filter.1 he).1
        rw [ent_name] at hne
        have hpd : p = (x, d) := by
          have : p.2 = d := hF.func (x := x) (by rw [← hne]; exact hp) hx
          rw [← hne, ← this]
        have := hdict _ he
        rw [hpd, ent_changed hch] at this
        simp at this
    | false =>
      have hin := h5 hn _ hx
      obtain ⟨y, hy, hyn, hys, hye⟩ := ent_unchanged hch
      have hck : (ent H (w.num + 1) w.table (x, d)).ck < w.num + 1 := by
        rw [hye]
        have := (hi.src y hy).2.1
        simp only
        omega
      have hin' : ent H (w.num + 1) w.table (x, d) ∈ t.filter (fun e => decide (e.ck < w.num + 1)) :=
        List.mem_filter.2 ⟨hin, by simpa using hck⟩
      obtain ⟨a1, _, d', a3, _⟩ := hi'.src _ hin
      have hd' : d' = d := hcont (x, d) hx d' (by rw [ent_name] at a3; exact a3)
      subst hd'
      have := loadBig_found (objs := fun k => if k = w.num + 1 then o else w.objs k) (w.num + 1) _
        (o.foldl (fun fs x => fs.put x.1 x.2) Fs.empty)
        (ent H (w.num + 1) w.table (x, d')) d' hdict hin' a1
        (by
          intro e' he' hne
          obtain ⟨p, hp, rfl⟩ := h3 e' (List.mem_filter.1 he').1
          rw [ent_name, ent_name] at hne
          change p.1 = x at hne
          have hpd : p = (x, d') := by
            have : p.2 = d' := hF.func (x := x) (by rw [← hne]; exact hp) hx
            rw [← hne, ← this]
          rw [hpd])
        (fun d'' hd'' => hi'.func _ _ _ _ hd'' a3) a3
      rw [ent_name] at this
      exact this
end

end Verif.S3Backup
