import Verif.PageSplit.PutItem

/-! # Merging two pages -/

namespace Verif.PageSplit

theorem updateMaxKey_ok {q : Page} (h : q.Ok) : (updateMaxKey q).Ok := by
  refine ⟨h.start, h.room, h.items, h.inner, h.hikey, ?_, ?_, ?_, h.chunks⟩
  · intro x hx
    have hx' : x ∈ keyed q.leaf q.items := hx
    show ma x.row.tup.klen ≤ ma ((q.items.map (fun it =>
      if q.leaf then it.row.tup.klen else it.size - itemHdr false)).foldl max q.hikeySize)
    have hmem : x ∈ q.items := keyed_sub _ _ x hx'
    have h1 := mem_le_foldl_max (q.items.map (fun it =>
      if q.leaf then it.row.tup.klen else it.size - itemHdr false)) q.hikeySize
      (List.mem_map.2 ⟨x, hmem, rfl⟩)
    refine Nat.le_trans ?_ (ma_mono h1)
    cases hl : q.leaf with
    | true => simp only [if_true]; exact Nat.le_refl _
    | false =>
      simp only [Bool.false_eq_true, if_false]
      have h2 := h.inner hl x hx'
      have h3 := (h.items x hmem).dvd
      have h4 := ma_le (x.size - itemHdr false)
      omega
  · refine Nat.le_trans (le_foldl_max _ _) (ma_le _)
  · apply foldl_max_le
    · exact hiSize_le h.hikey
    · intro y hy
      obtain ⟨x, hx, rfl⟩ := List.mem_map.1 hy
      have hx := h.items x hx
      cases hl : q.leaf with
      | true => simp only [if_true]; exact hx.key
      | false =>
        simp only [Bool.false_eq_true, if_false]
        have := hx.hi
        rw [hl] at this
        omega

theorem canMerge_spec {vacL vacR : Nat} {l r : Page} {e : Env} {csn : Option Nat}
    (h : canMerge vacL vacR l r e csn = true) :
    r.dataSize + l.dataSize ≤ blck ∨ (l.leaf = true ∧
      r.dataSize + l.dataSize ≤
        blck + vacated e csn none 0 l.items + vacated e csn none 0 r.items) := by
  unfold canMerge at h
  dsimp only at h
  by_cases h1 : (blck : Int) - l.dataSize ≥ r.dataSize
  · left; omega
  · rw [if_neg h1] at h
    by_cases h2 : (!l.leaf) = true
    · rw [if_pos h2] at h; cases h
    · rw [if_neg h2] at h
      split at h
      · cases h
      · right
        have h3 := of_decide_eq_true h
        refine ⟨by simpa using h2, ?_⟩
        omega

theorem Page.split_size (p : Page) : p.dataSize = p.start + ((p.chunks.map
    (fun c => arr c.length)).sum + sizes p.items) := by
  unfold Page.dataSize; rw [chunkSizes_eq]; rfl

theorem giveKey_spec (t : Tup) {l : List Item} (hl : ∀ x ∈ l, ItemOk false x)
    (ht : t.klen ≤ maxTup) :
    (∀ x ∈ giveKey (some t) l, ItemOk false x) ∧
    sizes (giveKey (some t) l) ≤ sizes l + ma t.klen ∧
    (giveKey (some t) l).length = l.length := by
  cases l with
  | nil => exact ⟨by simp [giveKey], Nat.zero_le _, rfl⟩
  | cons x l =>
    refine ⟨?_, ?_, rfl⟩
    · intro y hy
      rcases List.mem_cons.1 hy with rfl | hy
      · refine ⟨?_, Nat.le_add_right _ _, fun h => (by cases h), ?_, ht⟩
        · have := ma_dvd t.klen; have := itemHdr_dvd false; dsimp only; omega
        · have := le_of_ma ht (by decide); dsimp only; omega
      · exact hl y (by simp [hy])
    · have h1 := (hl x (by simp)).lo
      show itemHdr false + ma t.klen + sizes l ≤ x.size + sizes l + ma t.klen
      omega

/-- A merge always succeeds once the check passed; else both pages are kept. -/
theorem mergePages_ok (o : Orc) (vacR : Nat) {l r : Page} {e e2 : Env} {csn : Option Nat}
    (hl : l.Ok) (hr : r.Ok) (hlr : r.leaf = l.leaf) (hhi : l.hi ≠ none) (he : e.le e2)
    (hkey : l.leaf = false → l.items ≠ []) :
    mergePages o vacR l r e e2 csn = .ok [l, r] ∨
    ∃ q, mergePages o vacR l r e e2 csn = .ok [q] ∧ q.Ok ∧ q.leaf = l.leaf ∧ q.hi = r.hi ∧
      (l.leaf = true → q.items = keep true e2 csn l.items ++ keep true e2 csn r.items) ∧
      (l.leaf = false → q.items = l.items ++ giveKey l.hi r.items) := by
  unfold mergePages
  cases hc : canMerge o.vac vacR l r e csn with
  | false => left; rfl
  | true =>
    right
    rw [if_pos rfl]
    have hspec := canMerge_spec hc
    have hsl := l.split_size
    have hsr := r.split_size
    have hal : arr l.items.length ≤ _ := arr_chunks l.chunks
    have har : arr r.items.length ≤ _ := arr_chunks r.chunks
    have hst := hr.start
    rw [hlr] at hst
    cases hleaf : l.leaf with
    | true =>
      simp only [if_true]
      have hol : ∀ x ∈ l.items, ItemOk true x := by rw [← hleaf]; exact hl.items
      have hor : ∀ x ∈ r.items, ItemOk true x := by rw [← hleaf, ← hlr]; exact hr.items
      have hdm : ∀ x : Row, x.droppable e csn = true → x.droppable e2 csn = true :=
        fun x hx => droppable_mono' he hx
      have hvl := vacated_none he hdm none l.items hol 0 (fun j h => by cases h)
      have hvr := vacated_none he hdm none r.items hor 0 (fun j h => by cases h)
      have hkl := keep_le true e2 csn l.items hol
      have hkr := keep_le true e2 csn r.items hor
      have harr := arr_mono (Nat.add_le_add hkl.2.2 hkr.2.2)
      have hadd := arr_add l.items.length r.items.length
      obtain ⟨q, h1, h2, h3, h4, h5⟩ := reorg_ok o.cutL true r.hi
        (keep true e2 csn l.items ++ keep true e2 csn r.items)
        (by
          intro x hx
          rcases List.mem_append.1 hx with hx | hx
          · exact hkl.1 x hx
          · exact hkr.1 x hx)
        (fun h => by cases h) hr.hikey (by
          rw [hleaf] at hst
          rw [sizes_append, List.length_append]
          rw [Page.hikeySize_eq] at hst
          rw [← hst]
          rcases hspec with h | ⟨_, h⟩ <;> omega)
      rw [h1]
      refine ⟨updateMaxKey q, rfl, updateMaxKey_ok h2, h5, h4, fun _ => h3, fun h => (by cases h)⟩
    | false =>
      simp only [Bool.false_eq_true, if_false]
      cases hh : l.hi with
      | none => exact absurd hh hhi
      | some t =>
        have hol : ∀ x ∈ l.items, ItemOk false x := by rw [← hleaf]; exact hl.items
        have hor : ∀ x ∈ r.items, ItemOk false x := by rw [← hleaf, ← hlr]; exact hr.items
        have hg := giveKey_spec t hor (hl.hikey t hh)
        have hadd := arr_add l.items.length r.items.length
        have hls : l.start = max (hikeysEnd l.leaf) (hdrSize + ma t.klen) := by
          rw [hl.start, Page.hikeySize_eq, hh]; rfl
        have hne := hkey hleaf
        obtain ⟨q, h1, h2, h3, h4, h5⟩ := reorg_ok o.cutL false r.hi
          (l.items ++ giveKey (some t) r.items)
          (by
            intro x hx
            rcases List.mem_append.1 hx with hx | hx
            · exact hol x hx
            · exact hg.1 x hx)
          (by
            intro _ x hx
            have hx' : x ∈ (l.items ++ giveKey (some t) r.items).tail := hx
            rw [List.tail_append_of_ne_nil hne] at hx'
            rcases List.mem_append.1 hx' with hx | hx
            · have := hl.inner hleaf x (by unfold keyed; rw [hleaf]; exact hx)
              exact this
            · cases hri : r.items with
              | nil => rw [hri] at hx; simp [giveKey] at hx
              | cons y ys =>
                rw [hri] at hx
                rcases List.mem_cons.1 hx with rfl | hx
                · exact Nat.le_refl _
                · refine hr.inner (by rw [hlr]; exact hleaf) x ?_
                  unfold keyed
                  rw [hlr, hleaf, hri]
                  exact hx) hr.hikey (by
            rw [hleaf] at hst
            rw [sizes_append, List.length_append, hg.2.2]
            rw [Page.hikeySize_eq] at hst
            rw [← hst]
            have := hg.2.1
            rcases hspec with h | ⟨h, _⟩
            · omega
            · rw [hleaf] at h; cases h)
        rw [h1]
        refine ⟨updateMaxKey q, rfl, updateMaxKey_ok h2, h5, h4, fun h => (by cases h),
          fun _ => h3⟩

end Verif.PageSplit
