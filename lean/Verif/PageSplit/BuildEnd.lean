import Verif.PageSplit.Build

/-! # Build of an index: the result -/

namespace Verif.PageSplit

/-! ## Reading the tree -/

/-- All rows below the items of level `i`, in order. -/
def scanTree (disk : List Page) : Nat → List Item → List Tup
  | 0, l => l.map (·.row.tup)
  | i + 1, l => (l.map (fun x =>
      match disk[x.row.tup.body]? with
      | none => []
      | some q => scanTree disk i q.items)).flatten

/-- The child for a key: the last one whose key is not greater; the key of the first child is not
looked at. -/
def childFor (k : Nat) : Item → List Item → Item
  | x, [] => x
  | x, y :: ys => if y.row.tup.key ≤ k then childFor k y ys else x

/-- The search for a key from a page of level `i`; it fails if the key is beyond the high key of a
page on the way. -/
def descend (disk : List Page) (k : Nat) : Nat → Page → Option Tup
  | 0, p =>
    if (p.hi.all (fun t => decide (k < t.key))) = true then
      (p.items.map (·.row.tup)).find? (fun t => t.key == k)
    else none
  | i + 1, p =>
    if (p.hi.all (fun t => decide (k < t.key))) = true then
      match p.items with
      | [] => none
      | x :: xs =>
        match disk[(childFor k x xs).row.tup.body]? with
        | none => none
        | some q => descend disk k i q
    else none

theorem Under.scan {disk : List Page} {i : Nat} {f : Bool} {nx : Option Nat} {l : List Item}
    {rows : List Tup} (h : Under disk i f nx l rows) : scanTree disk i l = rows := by
  induction h with
  | leaf => rfl
  | nil => rfl
  | cons hq hhi ha hne hk hl ih1 ih2 =>
    unfold scanTree at ih2 ⊢
    rw [List.map_cons, List.flatten_cons, ih2, hq]
    dsimp only
    rw [ih1]

/-- Rows in order. -/
def Asc (rows : List Tup) : Prop := rows.Pairwise (fun a b => a.key < b.key)

theorem find_row {rows : List Tup} (hs : Asc rows) {t : Tup} (ht : t ∈ rows) :
    rows.find? (fun x => x.key == t.key) = some t := by
  induction rows with
  | nil => cases ht
  | cons a rows ih =>
    obtain ⟨h1, h2⟩ := List.pairwise_cons.1 hs
    rw [List.find?_cons]
    rcases List.mem_cons.1 ht with rfl | ht
    · simp
    · have := h1 t ht
      have hne : (a.key == t.key) = false := by simp; omega
      rw [hne]
      exact ih h2 ht

theorem keyOf_mem {rows : List Tup} {k : Nat} (h : keyOf rows = some k) :
    ∃ t ∈ rows, t.key = k := by
  cases rows with
  | nil => cases h
  | cons t rows => exact ⟨t, by simp, by simpa [keyOf] using h⟩

theorem keyOf_le {rows : List Tup} {k : Nat} (h : keyOf rows = some k) (hs : Asc rows) :
    ∀ t ∈ rows, k ≤ t.key := by
  cases rows with
  | nil => intro t ht; cases ht
  | cons a rows =>
    simp only [keyOf, List.head?_cons, Option.map_some, Option.some.injEq] at h
    intro t ht
    rcases List.mem_cons.1 ht with rfl | ht
    · omega
    · have := (List.pairwise_cons.1 hs).1 t ht; omega

/-- The child of a key that is there. -/
theorem Under.child {disk : List Page} {i : Nat} {nx : Option Nat} {t : Tup} :
    ∀ {l : List Item} {x : Item} {f : Bool} {rows : List Tup},
    Under disk (i + 1) f nx (x :: l) rows → Asc rows → t ∈ rows →
    (∀ n, nx = some n → t.key < n) →
    ∃ q a n', disk[(childFor t.key x l).row.tup.body]? = some q ∧ q.hi.map (·.key) = n' ∧
      Under disk i true n' q.items a ∧ Asc a ∧ t ∈ a ∧ ∀ n, n' = some n → t.key < n := by
  intro l
  induction l with
  | nil =>
    intro x f rows h hs ht hnx
    cases h with
    | cons hq hhi ha hne hk hl =>
      rename_i q a b
      have hb : b = [] := hl.empty_iff.1 rfl
      subst hb
      rw [List.append_nil] at hs ht
      exact ⟨q, a, _, hq, hhi, ha, hs, ht, by simpa [keyOf] using hnx⟩
  | cons y l ih =>
    intro x f rows h hs ht hnx
    cases h with
    | cons hq hhi ha hne hk hl =>
      rename_i q a b
      have hkb := hl.key
      have hsa := List.pairwise_append.1 hs
      unfold childFor
      by_cases hta : t ∈ a
      · obtain ⟨z, hz, hzk⟩ := keyOf_mem hkb
        have := hsa.2.2 t hta z hz
        rw [if_neg (by omega)]
        refine ⟨q, a, _, hq, hhi, ha, hsa.1, hta, ?_⟩
        intro n hn
        rw [hkb] at hn
        simp at hn
        omega
      · have htb : t ∈ b := by
          rcases List.mem_append.1 ht with h | h
          · exact absurd h hta
          · exact h
        have := keyOf_le hkb hsa.2.1 t htb
        rw [if_pos this]
        exact ih hl hsa.2.1 htb hnx

theorem Under.descend {disk : List Page} {t : Tup} : ∀ {i : Nat} {p : Page} {nx : Option Nat}
    {rows : List Tup}, Under disk i true nx p.items rows → p.hi.map (·.key) = nx → Asc rows →
    t ∈ rows → (∀ n, nx = some n → t.key < n) →
    Verif.PageSplit.descend disk t.key i p = some t := by
  intro i
  induction i with
  | zero =>
    intro p nx rows h hhi hs ht hnx
    have hc : (p.hi.all (fun u => decide (t.key < u.key))) = true := by
      cases hp : p.hi with
      | none => rfl
      | some u => rw [hp] at hhi; simpa using hnx u.key hhi.symm
    unfold Verif.PageSplit.descend
    rw [if_pos hc]
    cases h
    exact find_row hs ht
  | succ i ih =>
    intro p nx rows h hhi hs ht hnx
    have hc : (p.hi.all (fun u => decide (t.key < u.key))) = true := by
      cases hp : p.hi with
      | none => rfl
      | some u => rw [hp] at hhi; simpa using hnx u.key hhi.symm
    unfold Verif.PageSplit.descend
    rw [if_pos hc]
    cases hi : p.items with
    | nil =>
      rw [hi] at h
      have := h.empty_iff.1 rfl
      rw [this] at ht; cases ht
    | cons x l =>
      rw [hi] at h
      obtain ⟨q, a, n', h1, h2, h3, h4, h5, h6⟩ := h.child hs ht hnx
      dsimp only
      rw [h1]
      exact ih h3 h2 h4 h5 h6

/-! ## The rows are put -/

theorem Con.anyNx {b : Bld} {nx nx' : Option Nat} {rows : List Tup} (h : Con b 0 nx rows) :
    Con b 0 nx' rows := by
  cases h with
  | empty hr he => exact .empty hr he
  | step hL hu hne hle hroot hkey ha =>
    refine .step hL ?_ hne hle hroot hkey ha
    cases hu
    exact .leaf _ _ _

/-- The rows `done` are in. -/
structure Put (b : Bld) (done : List Tup) : Prop where
  ok : LvOk b
  con : (done = [] ∧ Fresh b 0) ∨ (done ≠ [] ∧ Con b 0 none done)
  cnt : ∃ S, Cnt b S (fun _ => 0) done.length (fun _ => 0)

theorem Put.init : Put Bld.init [] := by
  have hl : ∀ (i : Nat) (L : Lvl), Bld.init.lvls[i]? = some L →
      L = ⟨Page.empty (i == 0), none⟩ := by
    intro i L h
    unfold Bld.init at h
    dsimp only at h
    cases i with
    | zero => simp at h; rw [← h]; rfl
    | succ i =>
      rw [List.getElem?_cons_succ, List.getElem?_replicate] at h
      split at h
      · cases h; rfl
      · cases h
  refine ⟨⟨rfl, ?_⟩, .inl ⟨rfl, rfl, ?_⟩, fun _ => 0, ?_⟩
  · intro i L h
    rw [hl i L h]
    have hi : (Page.empty (i == 0)).items = [] := rfl
    refine ⟨?_, ?_, fun t ht => (by cases ht)⟩
    · dsimp only; rw [hi]; rfl
    · dsimp only; rw [hi]; exact LOk.nil _
  · intro j L _ h
    rw [hl j L h]
    exact ⟨rfl, rfl⟩
  · have hc : ∀ i, Verif.PageSplit.cnt Bld.init i = 0 := by
      intro i
      unfold Verif.PageSplit.cnt
      cases h : Bld.init.lvls[i]? with
      | none => rfl
      | some L => rw [hl i L h]; rfl
    refine ⟨by rw [hc]; simp, fun i => by rw [hc]; simp, by simp, by simp⟩

theorem rowItem_ok {t : Tup} (h1 : t.len ≤ maxTup) (h2 : t.klen ≤ maxTup) :
    ItemOk true (rowItem t) := by
  have h3 := ma_dvd t.len
  have h4 := le_of_ma h1 (by decide)
  refine ⟨need_dvd true t, ?_, fun _ => Nat.le_refl _, ?_, h2⟩
  · show itemHdr true ≤ need true t; unfold need; omega
  · show need true t ≤ _; unfold need; omega

theorem Put.row {ff : Nat} (hff : 40 ≤ ff) (cut : Nat → Nat → Bool) {b : Bld} {done : List Tup}
    (h : Put b done) {t : Tup} (h1 : t.len ≤ maxTup) (h2 : t.klen ≤ maxTup)
    (hN : done.length + 1 < 2 ^ 31) :
    ∃ b', putStack ff cut (maxDepth + 1) 0 (rowItem t) b = .ok b' ∧ Put b' (done ++ [t]) := by
  obtain ⟨S, hS⟩ := h.cnt
  obtain ⟨b', S', g1, g2, g3, g4, _⟩ := putStack_ok hff cut hN (F := fun _ => 0) (maxDepth + 1) 0
    (rowItem t) b S none done [t] (by decide) (by decide) h.ok
    (by
      rcases h.con with h | ⟨h, hc⟩
      · exact .inl h
      · exact .inr ⟨h, hc.anyNx⟩)
    (.leaf _ _ [rowItem t]) (rowItem_ok h1 h2) (fun h => absurd rfl h) (fun h => absurd rfl h)
    (fun _ => rfl)
    (by
      refine ⟨?_, ?_, hS.fin, ?_⟩
      · have := hS.zero; rw [at1_self]; omega
      · intro i; have := hS.succ i; rw [at1_ne (by omega)]; omega
      · intro i hi; cases hi)
  refine ⟨b', g1, g2, .inr ⟨by simp, g3⟩, S', ?_⟩
  rw [List.length_append]; exact g4

theorem putRows_ok {ff : Nat} (hff : 40 ≤ ff) (cut : Nat → Nat → Bool) (ts : List Tup) :
    ∀ (b : Bld) (done : List Tup), Put b done → (∀ t ∈ ts, t.len ≤ maxTup ∧ t.klen ≤ maxTup) →
    done.length + ts.length < 2 ^ 31 →
    ∃ b', putRows ff cut ts b = .ok b' ∧ Put b' (done ++ ts) := by
  induction ts with
  | nil => intro b done h _ _; exact ⟨b, rfl, by simpa using h⟩
  | cons t ts ih =>
    intro b done h hts hN
    rw [List.length_cons] at hN
    obtain ⟨b1, h1, h2⟩ := h.row hff cut (hts t (by simp)).1 (hts t (by simp)).2 (by omega)
    obtain ⟨b2, h3, h4⟩ := ih b1 (done ++ [t]) h2 (fun u hu => hts u (by simp [hu]))
      (by rw [List.length_append]; simp; omega)
    refine ⟨b2, ?_, by simpa using h4⟩
    unfold putRows
    rw [h1]
    exact h3

/-! ## The build is finished -/

theorem putStack_root {ff : Nat} (cut : Nat → Nat → Bool) : ∀ (f lvl : Nat) (it : Item)
    (b b' : Bld), putStack ff cut f lvl it b = .ok b' → b.root ≤ b'.root := by
  intro f
  induction f with
  | zero => intro lvl it b b' h; cases h
  | succ f ih =>
    intro lvl it b b' h
    unfold putStack at h
    split at h
    · cases h
    · split at h
      · cases h; exact Nat.le_refl _
      · dsimp only at h
        split at h
        · cases h
        · split at h
          · cases h
          · split at h
            · cases h
            · split at h
              · cases h
              · have := ih _ _ _ _ h
                dsimp only at this
                split at this <;> omega

theorem lvl_reorg (cut : Nat → Bool) {leaf : Bool} {l : List Item} (h : LOk leaf l) :
    ∃ q, reorg cut leaf none l = some q ∧ q.items = l ∧ q.hi = none := by
  obtain ⟨q, h1, _, h3, h4, _⟩ := reorg_ok cut leaf none l h.items h.inner
    (fun t ht => by cases ht) (by
      have h1 := h.room
      have h2 : hdrSize ≤ hikeysEnd leaf := by cases leaf <;> decide
      unfold chunkSize at h1
      show max _ (hdrSize + 0) + _ + _ ≤ _
      omega)
  exact ⟨q, h1, h3, h4⟩

theorem downItem_ok {k : Option Tup} (h : ∀ t, k = some t → t.klen ≤ maxTup) (d : Nat) :
    ItemOk false (downItem k d) ∧
      itemHdr false + ma (downItem k d).row.tup.klen ≤ (downItem k d).size := by
  cases k with
  | none =>
    have e : (downItem none d).size = 8 := rfl
    exact ⟨⟨by rw [e], Nat.le_refl _, fun h => (by cases h), by rw [e]; decide, Nat.zero_le _⟩,
      (by decide : itemHdr false + ma 0 ≤ 8)⟩
  | some t =>
    have h4 := h t rfl
    have h5 := le_of_ma h4 (by decide)
    have h6 := ma_dvd t.klen
    refine ⟨⟨?_, ?_, fun h => (by cases h), ?_, h4⟩, Nat.le_refl _⟩
    · show (itemHdr false + ma t.klen) % 8 = 0
      have := itemHdr_dvd false; omega
    · show itemHdr false ≤ itemHdr false + ma t.klen
      omega
    · show itemHdr false + ma t.klen ≤ _
      omega

/-- The page of the root level. -/
theorem Con.top {b : Bld} {lvl : Nat} {nx : Option Nat} {rows : List Tup} (h : Con b lvl nx rows)
    (hne : rows ≠ []) : ∃ L c rest nx', b.lvls[b.root]? = some L ∧
      Under b.disk b.root true nx' L.page.items c ∧ rows = c ++ rest ∧
      (lvl = b.root → rest = [] ∧ nx' = nx) := by
  induction h with
  | empty => exact absurd rfl hne
  | step hL hu hc hle hrt hkey ha ih =>
    rename_i lvl nx L a c
    by_cases h : a = []
    · subst h
      have h1 := ha.nil.1
      have h2 : lvl = b.root := by omega
      refine ⟨L, c, [], nx, ?_, ?_, by simp, fun _ => ⟨rfl, rfl⟩⟩
      · rw [← h2]; exact hL
      · rw [← h2]; exact hu
    · obtain ⟨L', c', rest, nx', h1, h2, h3, _⟩ := ih h
      have h4 := ha.le h
      refine ⟨L', c', rest ++ c, nx', h1, h2, by rw [h3, List.append_assoc], fun h => by omega⟩

theorem finish_ok {ff : Nat} (hff : 40 ≤ ff) (cut : Nat → Nat → Bool) {N : Nat}
    (hN : N < 2 ^ 31) {rows : List Tup} (hr : rows ≠ []) : ∀ (f i : Nat) (b : Bld)
    (S F : Nat → Nat), LvOk b → Con b i none rows → i + f ≤ b.root → Cnt b S F N (fun _ => 0) →
    (∀ j, i < j → F j = 0) →
    ∃ b', finish ff cut f i b = .ok b' ∧ LvOk b' ∧ Con b' (i + f) none rows := by
  intro f
  induction f with
  | zero => intro i b S F h1 h2 _ _ _; exact ⟨b, rfl, h1, h2⟩
  | succ f ih =>
    intro i b S F hok hcon hroot hcnt hF
    cases hcon with
    | empty => exact absurd rfl hr
    | step hL hu hne hle hrt hkey ha =>
      rename_i L a c
      obtain ⟨hpg, hlok, hkl⟩ := hok.pg i L hL
      have hlf : L.page.leaf = (i == 0) := by rw [hpg]; rfl
      obtain ⟨q, q1, q2, q3⟩ := lvl_reorg (cut b.disk.length) hlok
      have hane : a ≠ [] := by
        intro h
        subst h
        have := ha.nil.1
        omega
      have hlen : b.root < 32 := by
        obtain ⟨_, _, _, _, h, _⟩ := ha.top hane
        have := (List.getElem?_eq_some_iff.1 h).1
        rw [hok.len] at this
        exact this
      have hdn := downItem_ok hkl b.disk.length
      have hnn : L.key ≠ none := fun h => by have := hrt.1 h; omega
      have hF1 := hF (i + 1) (by omega)
      obtain ⟨b1, S1, p1, p2, p3, p4, _⟩ := putStack_ok hff cut hN
        (F := fun j => if j = i + 1 then 1 else F j) (maxDepth + 1) (i + 1)
        (downItem L.key b.disk.length) { b with disk := b.disk ++ [q] } S none a c
        (by unfold maxDepth; omega) (by omega) ⟨hok.len, hok.pg⟩
        (.inr ⟨hane, ha.frame (fun _ _ => rfl) ⟨[q], rfl⟩ rfl⟩)
        (by
          have hbody : (downItem L.key b.disk.length).row.tup.body = b.disk.length := by
            cases L.key <;> rfl
          rw [show c = c ++ [] by simp]
          refine .cons (q := q) ?_ ?_ ?_ hne ?_ (.nil _ _ _)
          · rw [hbody]; simp
          · rw [q3]; rfl
          · rw [q2]
            exact hu.mono _
          · right
            cases hk : L.key with
            | none => exact absurd hk hnn
            | some t => exact hkey t hk)
        hdn.1 (fun _ => hdn.2) (fun _ h => absurd h hane) (fun h => by omega)
        (by
          have hc : ∀ j, Verif.PageSplit.cnt { b with disk := b.disk ++ [q] } j =
              Verif.PageSplit.cnt b j := fun j => rfl
          refine ⟨?_, ?_, ?_, ?_⟩
          · have := hcnt.zero; rw [hc, at1_ne (by omega)]; omega
          · intro j
            have := hcnt.succ j
            rw [hc]
            by_cases hj : j + 1 = i + 1
            · rw [if_pos hj, hj, at1_self]
              rw [hj, hF1] at this
              rw [show j = i by omega] at this ⊢
              omega
            · rw [if_neg hj, at1_ne hj]
              exact this
          · intro j
            split
            · omega
            · exact hcnt.fin j
          · intro j hj
            rw [hc]
            by_cases h : j = i + 1
            · rw [h, at1_self]; omega
            · rw [if_neg h] at hj
              have := hcnt.last j hj
              omega)
      have hrm := putStack_root cut _ _ _ _ _ p1
      dsimp only at hrm
      obtain ⟨b2, r1, r2, r3⟩ := ih (i + 1) b1 S1 _ p2 p3 (by omega) p4 (by
        intro j hj
        rw [if_neg (by omega)]
        exact hF j (by omega))
      refine ⟨b2, ?_, r2, by rw [show i + (f + 1) = i + 1 + f by omega]; exact r3⟩
      unfold finish
      rw [hL]
      dsimp only
      rw [hlf, q1]
      dsimp only
      rw [p1]
      exact r1

/-- The tree built: the page written last is the root, and below it are the first rows; all of them,
if the level of the root did not change when the last pages were written. -/
theorem buildIndex_ok {ff : Nat} (hff : 40 ≤ ff) (cut : Nat → Nat → Bool) {rows : List Tup}
    (hsz : ∀ t ∈ rows, t.len ≤ maxTup ∧ t.klen ≤ maxTup) (hN : rows.length < 2 ^ 31) :
    ∃ b q c rest, buildIndex ff cut rows = .ok b ∧ b.disk.getLast? = some q ∧ rows = c ++ rest ∧
      q.hi = none ∧ (∃ nx, Under b.disk b.root true nx q.items c ∧
        (savedRoot ff cut rows = some b.root → rest = [] ∧ nx = none)) := by
  obtain ⟨b0, h1, h2⟩ := putRows_ok hff cut rows Bld.init [] Put.init hsz (by simpa using hN)
  rw [List.nil_append] at h2
  unfold buildIndex savedRoot
  rw [h1]
  dsimp only
  rcases h2.con with ⟨hr, hfr⟩ | ⟨hr, hcon⟩
  · -- no rows
    have hroot : b0.root = 0 := hfr.1
    rw [hroot]
    show ∃ b q c rest, writeRoot cut b0 = .ok b ∧ _
    obtain ⟨L, hL⟩ : ∃ L, b0.lvls[0]? = some L := ⟨_, List.getElem?_eq_getElem (by
      rw [h2.ok.len]; decide)⟩
    obtain ⟨hpg, hlok, hkl⟩ := h2.ok.pg 0 L hL
    have hlf : L.page.leaf = (0 == 0) := by rw [hpg]; rfl
    obtain ⟨q, q1, q2, q3⟩ := lvl_reorg (cut b0.disk.length) hlok
    have hit := (hfr.2 0 L (Nat.le_refl _) hL).1
    refine ⟨{ b0 with disk := b0.disk ++ [q] }, q, [], [], ?_, by simp, by simpa using hr, q3,
      none, ?_, fun _ => ⟨rfl, rfl⟩⟩
    · unfold writeRoot
      rw [hroot, hL]
      dsimp only
      rw [hlf, q1]
    · dsimp only
      rw [q2, hit, hroot]
      exact .leaf _ _ []
  · obtain ⟨S, hS⟩ := h2.cnt
    obtain ⟨b1, f1, f2, f3⟩ := finish_ok hff cut hN hr b0.root 0 b0 S _ h2.ok hcon (by omega) hS
      (fun _ _ => rfl)
    rw [f1]
    dsimp only
    rw [Nat.zero_add] at f3
    obtain ⟨L, c, rest, nx', t1, t2, t3, t4⟩ := f3.top hr
    obtain ⟨hpg, hlok, hkl⟩ := f2.pg _ L t1
    have hlf : L.page.leaf = (b1.root == 0) := by rw [hpg]; rfl
    obtain ⟨q, q1, q2, q3⟩ := lvl_reorg (cut b1.disk.length) hlok
    refine ⟨{ b1 with disk := b1.disk ++ [q] }, q, c, rest, ?_, by simp, t3, q3, nx', ?_, ?_⟩
    · unfold writeRoot
      rw [t1]
      dsimp only
      rw [hlf, q1]
    · dsimp only
      rw [q2]
      exact t2.mono _
    · intro h
      exact t4 (Option.some.inj h)

end Verif.PageSplit
