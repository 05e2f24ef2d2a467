import Verif.PageSplit.BuildInv

/-! # Build of an index: invariants -/

namespace Verif.PageSplit

/-- The pages of all levels are well formed. -/
structure LvOk (b : Bld) : Prop where
  len : b.lvls.length = maxDepth
  pg : ∀ i L, b.lvls[i]? = some L → L.page = bpage (i == 0) L.page.items ∧
    LOk (i == 0) L.page.items ∧ ∀ t, L.key = some t → t.klen ≤ maxTup

/-- The rows on and below the pages of the levels from `lvl` up; `nx` is the key of the next row. -/
inductive Con (b : Bld) : Nat → Option Nat → List Tup → Prop where
  | empty {lvl : Nat} {nx : Option Nat} (hr : b.root < lvl)
      (he : ∀ j L, lvl ≤ j → b.lvls[j]? = some L → L.page.items = [] ∧ L.key = none) :
      Con b lvl nx []
  | step {lvl : Nat} {nx : Option Nat} {L : Lvl} {a c : List Tup} (hL : b.lvls[lvl]? = some L)
      (hu : Under b.disk lvl true nx L.page.items c) (hne : c ≠ []) (hle : lvl ≤ b.root)
      (hroot : L.key = none ↔ lvl = b.root) (hkey : ∀ t, L.key = some t → keyOf c = some t.key)
      (ha : Con b (lvl + 1) (keyOf c) a) : Con b lvl nx (a ++ c)

theorem Con.le {b : Bld} {lvl : Nat} {nx : Option Nat} {rows : List Tup} (h : Con b lvl nx rows)
    (hne : rows ≠ []) : lvl ≤ b.root := by
  cases h with
  | empty => exact absurd rfl hne
  | step _ _ _ hle => exact hle

theorem Con.nil {b : Bld} {lvl : Nat} {nx : Option Nat} (h : Con b lvl nx []) :
    b.root < lvl ∧ ∀ j L, lvl ≤ j → b.lvls[j]? = some L → L.page.items = [] ∧ L.key = none := by
  generalize hr : ([] : List Tup) = rows at h
  cases h with
  | empty h1 h2 => exact ⟨h1, h2⟩
  | step _ _ hne => exact absurd (List.append_eq_nil_iff.1 hr.symm).2 hne

theorem Con.frame {b b' : Bld} {lvl : Nat} {nx : Option Nat} {rows : List Tup}
    (h : Con b lvl nx rows) (hl : ∀ j, lvl ≤ j → b'.lvls[j]? = b.lvls[j]?)
    (hd : ∃ d, b'.disk = b.disk ++ d) (hr : b'.root = b.root) : Con b' lvl nx rows := by
  induction h with
  | empty hr' he =>
    refine .empty (by omega) ?_
    intro j L hj hL
    rw [hl j hj] at hL
    exact he j L hj hL
  | step hL hu hne hle hroot hkey _ ih =>
    obtain ⟨d, hd'⟩ := hd
    refine .step (by rw [hl _ (Nat.le_refl _)]; exact hL) (by rw [hd']; exact hu.mono d) hne
      (by omega) (by rw [hr]; exact hroot) hkey (ih (fun j hj => hl j (by omega)))

/-- The level is about to get its first item. -/
def Fresh (b : Bld) (lvl : Nat) : Prop :=
  b.root = lvl ∧ ∀ j L, lvl ≤ j → b.lvls[j]? = some L → L.page.items = [] ∧ L.key = none

/-- The number of items on a level. -/
def cnt (b : Bld) (i : Nat) : Nat := ((b.lvls[i]?).map (·.page.items.length)).getD 0

/-- `S i` pages of level `i` were written when full, `F i` when the build was finished; `ex i` items
are on their way to the level. -/
structure Cnt (b : Bld) (S F : Nat → Nat) (N : Nat) (ex : Nat → Nat) : Prop where
  zero : S 0 + cnt b 0 + ex 0 ≤ N
  succ : ∀ i, 2 * S (i + 1) + cnt b (i + 1) + ex (i + 1) ≤ S i + F (i + 1)
  fin : ∀ i, F i ≤ 1
  last : ∀ i, F i = 1 → 1 ≤ cnt b i + ex i

theorem Cnt.pow {b : Bld} {S F : Nat → Nat} {N : Nat} {ex : Nat → Nat} (h : Cnt b S F N ex)
    (i : Nat) : 2 ^ i * S i ≤ N := by
  induction i with
  | zero => have := h.zero; omega
  | succ i ih =>
    have h1 := h.succ i
    have h2 := h.fin (i + 1)
    have h3 := h.last (i + 1)
    have h4 : 2 * S (i + 1) ≤ S i := by
      by_cases h5 : F (i + 1) = 1
      · have := h3 h5; omega
      · omega
    calc 2 ^ (i + 1) * S (i + 1) = 2 ^ i * (2 * S (i + 1)) := by
          rw [Nat.pow_succ, Nat.mul_assoc]
      _ ≤ 2 ^ i * S i := Nat.mul_le_mul_left _ h4
      _ ≤ N := ih

theorem Cnt.lvl {b : Bld} {S F : Nat → Nat} {N : Nat} {ex : Nat → Nat} (h : Cnt b S F N ex)
    (hN : N < 2 ^ 31) {i : Nat} (hi : 1 ≤ S i) : i + 1 < 32 := by
  have h1 := h.pow i
  have h2 : 2 ^ i ≤ 2 ^ i * S i := Nat.le_mul_of_pos_right _ hi
  have h3 : 2 ^ i < 2 ^ 31 := by omega
  have h4 := (Nat.pow_lt_pow_iff_right (a := 2) (by omega)).1 h3
  omega

def at1 (lvl : Nat) : Nat → Nat := fun i => if i = lvl then 1 else 0

theorem at1_self (lvl : Nat) : at1 lvl lvl = 1 := by simp [at1]
theorem at1_ne {lvl i : Nat} (h : i ≠ lvl) : at1 lvl i = 0 := by simp [at1, h]

/-- With a fill factor of at least 40 a page with no row, or with one downlink, takes another. -/
theorem fits_small {ff : Nat} (hff : 40 ≤ ff) {leaf : Bool} {l : List Item} (h : LOk leaf l)
    {it : Item} (hi : ItemOk leaf it) (h0 : leaf = true → l = [])
    (h1 : leaf = false → l.length ≤ 1) : buildFits ff (bpage leaf l) it.size = true := by
  have hs : sizes l + arr l.length ≤ 16 ∧ (leaf = true → sizes l + arr l.length = 0) ∧
      arr (l.length + 1) ≤ arr l.length + 8 ∧ arr l.length ≤ arr (l.length + 1) := by
    refine ⟨?_, ?_, arr_succ _, arr_mono (Nat.le_succ _)⟩
    · match l, leaf with
      | [], _ => decide
      | [x], false =>
        have := h.first rfl x (by simp)
        rw [sizes_cons, sizes_nil, this]
        have e : arr [x].length = 8 := arr_one
        rw [e]
        omega
      | [x], true => cases h0 rfl
      | x :: y :: l, false => have := h1 rfl; simp at this
      | x :: y :: l, true => cases h0 rfl
    · intro hl; rw [h0 hl]; rfl
  obtain ⟨hs1, hs2, hs3, hs4⟩ := hs
  have hle := hi.hi
  unfold buildFits
  dsimp only
  rw [bpage_items, bpage_dataSize]
  unfold chunkSize
  cases leaf with
  | true =>
    have hs2 := hs2 rfl
    simp only [hikeysEnd, itemHdr, maxTup, if_true] at hle ⊢
    simp only [Bool.and_eq_true, Bool.or_eq_true, decide_eq_true_eq]
    unfold blck
    omega
  | false =>
    have e1 : hikeysEnd false = 512 := rfl
    have e2 : itemHdr false = 8 := rfl
    rw [e1]
    rw [e2] at hle
    unfold maxTup at hle
    simp only [Bool.and_eq_true, Bool.or_eq_true, decide_eq_true_eq]
    unfold blck
    omega

theorem LOk.snoc {leaf : Bool} {l : List Item} (h : LOk leaf l) {it : Item} (hi : ItemOk leaf it)
    (hin : leaf = false → itemHdr false + ma it.row.tup.klen ≤ it.size)
    (hrow : leaf = true → it = rowItem it.row.tup) (h8 : leaf = false → l = [] → it.size = 8)
    {ff : Nat} (hf : buildFits ff (bpage leaf l) it.size = true) : LOk leaf (l ++ [it]) := by
  refine ⟨?_, ?_, ?_, ?_, ?_⟩
  · intro x hx
    rcases List.mem_append.1 hx with hx | hx
    · exact h.items x hx
    · rw [List.mem_singleton.1 hx]; exact hi
  · intro hl x hx
    subst hl
    cases l with
    | nil => simp [keyed] at hx
    | cons y l =>
      have hx' : x ∈ l ++ [it] := hx
      rcases List.mem_append.1 hx' with hx | hx
      · exact h.inner rfl x hx
      · rw [List.mem_singleton.1 hx]; exact hin rfl
  · unfold buildFits at hf
    dsimp only at hf
    rw [bpage_items, bpage_dataSize] at hf
    simp only [Bool.and_eq_true, decide_eq_true_eq] at hf
    have h1 := arr_mono (Nat.le_succ l.length)
    simp only [Nat.succ_eq_add_one] at h1
    have h2 := hf.2
    unfold chunkSize at h2 ⊢
    rw [sizes_append, sizes_cons, sizes_nil, List.length_append, List.length_cons,
      List.length_nil, Nat.zero_add]
    omega
  · intro hl x hx
    rcases List.mem_append.1 hx with hx | hx
    · exact h.rows hl x hx
    · rw [List.mem_singleton.1 hx]; exact hrow hl
  · intro hl x hx
    cases l with
    | nil =>
      simp at hx
      rw [← hx]; exact h8 hl rfl
    | cons y l => exact h.first hl x (by simpa using hx)

theorem LvOk.set {b : Bld} (h : LvOk b) {lvl : Nat} {L : Lvl} {r : Nat} {d : List Page}
    (h1 : L.page = bpage (lvl == 0) L.page.items) (h2 : LOk (lvl == 0) L.page.items)
    (h3 : ∀ t, L.key = some t → t.klen ≤ maxTup) : LvOk ⟨b.lvls.set lvl L, r, d⟩ := by
  refine ⟨by simpa using h.len, ?_⟩
  intro i L' hL'
  dsimp only at hL'
  rw [List.getElem?_set] at hL'
  split at hL'
  · rename_i hi
    subst hi
    split at hL'
    · cases hL'; exact ⟨h1, h2, h3⟩
    · cases hL'
  · exact h.pg i L' hL'

theorem cnt_set {b : Bld} {lvl : Nat} {L : Lvl} {r : Nat} {d : List Page}
    (hl : lvl < b.lvls.length) (i : Nat) : cnt ⟨b.lvls.set lvl L, r, d⟩ i =
      if i = lvl then L.page.items.length else cnt b i := by
  unfold cnt
  dsimp only
  by_cases h : i = lvl
  · subst h; rw [if_pos rfl, List.getElem?_set_self hl]; rfl
  · rw [if_neg h, List.getElem?_set_ne (by omega)]

/-- An item is put on a level. -/
theorem putStack_ok {ff : Nat} (hff : 40 ≤ ff) (cut : Nat → Nat → Bool) {N : Nat}
    (hN : N < 2 ^ 31) {F : Nat → Nat} : ∀ (f lvl : Nat) (it : Item) (b : Bld) (S : Nat → Nat)
    (nx : Option Nat) (rows c : List Tup), 33 ≤ f + lvl → lvl < 32 → LvOk b →
    ((rows = [] ∧ Fresh b lvl) ∨ (rows ≠ [] ∧ Con b lvl (keyOf c) rows)) →
    Under b.disk lvl rows.isEmpty nx [it] c → ItemOk (lvl == 0) it →
    (lvl ≠ 0 → itemHdr false + ma it.row.tup.klen ≤ it.size) →
    (lvl ≠ 0 → rows = [] → it.size = 8) → (lvl = 0 → it = rowItem it.row.tup) →
    Cnt b S F N (at1 lvl) →
    ∃ b' S', putStack ff cut f lvl it b = .ok b' ∧ LvOk b' ∧ Con b' lvl nx (rows ++ c) ∧
      Cnt b' S' F N (fun _ => 0) ∧ (∀ j, j < lvl → b'.lvls[j]? = b.lvls[j]?) ∧
      ∃ d, b'.disk = b.disk ++ d := by
  intro f
  induction f with
  | zero => intro lvl it b S nx rows c hf hl; omega
  | succ f ih =>
    intro lvl it b S nx rows c hf hlvl hok hpre hu hit hin h8 hrow hcnt
    have hlen : lvl < b.lvls.length := by rw [hok.len]; exact hlvl
    obtain ⟨L, hL⟩ : ∃ L, b.lvls[lvl]? = some L := ⟨_, List.getElem?_eq_getElem hlen⟩
    obtain ⟨hpg, hlok, hkl⟩ := hok.pg lvl L hL
    have hlf : ∀ h : (lvl == 0) = false, lvl ≠ 0 := fun h => by simpa using h
    have hlt : ∀ h : (lvl == 0) = true, lvl = 0 := fun h => by simpa using h
    have hc : c ≠ [] := by
      intro h
      have := hu.empty_iff.2 h
      cases this
    have hrows : L.page.items = [] ↔ rows = [] := by
      rcases hpre with ⟨h1, _, h2⟩ | ⟨h1, h2⟩
      · exact ⟨fun _ => h1, fun _ => (h2 lvl L (Nat.le_refl _) hL).1⟩
      · refine ⟨fun h => ?_, fun h => absurd h h1⟩
        cases h2 with
        | empty => rfl
        | step hL' hu' hne' =>
          rw [hL] at hL'; cases hL'
          exact absurd (hu'.empty_iff.1 h) hne'
    unfold putStack
    rw [hL]
    dsimp only
    generalize hl : L.page.items = l at *
    rw [hpg]
    by_cases hfit : buildFits ff (bpage (lvl == 0) l) it.size = true
    · rw [if_pos hfit]
      refine ⟨_, S, rfl, ?_, ?_, ?_, ?_, [], by simp⟩
      · refine hok.set ?_ ?_ hkl
        · show bpage (lvl == 0) _ = bpage _ (Page.items (bpage (lvl == 0) _))
          rw [bpage_items]
        · show LOk _ (Page.items (bpage (lvl == 0) _))
          rw [bpage_items]
          exact hlok.snoc hit (fun h => hin (hlf h)) (fun h => hrow (hlt h))
            (fun h h' => h8 (hlf h) (hrows.1 h')) hfit
      · rcases hpre with ⟨h1, h2, h3⟩ | ⟨h1, h2⟩
        · subst h1
          have hl0 : l = [] := hrows.2 rfl
          refine .step (L := _) (List.getElem?_set_self hlen) ?_ hc (by show lvl ≤ b.root; omega)
            ?_ ?_ ?_
          · show Under b.disk lvl true nx (Page.items (bpage (lvl == 0) _)) c
            rw [bpage_items, hl0]
            exact hu
          · have := (h3 lvl L (Nat.le_refl _) hL).2
            exact ⟨fun _ => h2.symm, fun _ => this⟩
          · intro t ht
            have := (h3 lvl L (Nat.le_refl _) hL).2
            have ht' : L.key = some t := ht
            rw [this] at ht'; cases ht'
          · refine .empty (by show b.root < lvl + 1; omega) ?_
            intro j L' hj hL'
            dsimp only at hL'
            rw [List.getElem?_set_ne (by omega)] at hL'
            exact h3 j L' (by omega) hL'
        · cases h2 with
          | empty => exact absurd rfl h1
          | step hL' hu' hne' hle' hroot' hkey' ha' =>
            rename_i L' a0 c0
            rw [hL] at hL'; cases hL'
            rw [hl] at hu'
            have hk : keyOf (c0 ++ c) = keyOf c0 := keyOf_append hne'
            rw [List.append_assoc]
            refine .step (L := _) (List.getElem?_set_self hlen) ?_ (by simp [hc]) hle' hroot' ?_ ?_
            · show Under b.disk lvl true nx (Page.items (bpage (lvl == 0) _)) (c0 ++ c)
              rw [bpage_items]
              refine hu'.append ?_ ?_
              · have : (a0 ++ c0).isEmpty = false := by
                  simpa [List.isEmpty_iff] using fun h => hne'
                rw [this] at hu
                exact hu
              · cases c with
                | nil => exact absurd rfl hc
                | cons t c => rfl
            · rw [hk]; exact hkey'
            · rw [hk]
              refine ha'.frame ?_ ⟨[], by simp⟩ rfl
              intro j hj
              exact List.getElem?_set_ne (by omega)
      · have hcs := fun i => cnt_set (b := b) (L := { L with page :=
            { bpage (lvl == 0) l with chunks := [l ++ [it]] } }) (r := b.root) (d := b.disk) hlen i
        have hni : ({ bpage (lvl == 0) l with chunks := [l ++ [it]] } : Page).items.length =
            l.length + 1 := by
          show (Page.items (bpage (lvl == 0) _)).length = _
          rw [bpage_items]; simp
        have hcl : cnt b lvl = l.length := by unfold cnt; rw [hL]; simp [hl]
        rw [hni] at hcs
        refine ⟨?_, ?_, hcnt.fin, ?_⟩
        · have := hcnt.zero
          rw [hcs 0]
          by_cases h0 : 0 = lvl
          · subst h0
            rw [if_pos rfl]; rw [at1_self] at this
            omega
          · rw [if_neg h0]
            omega
        · intro i
          have := hcnt.succ i
          rw [hcs (i + 1)]
          by_cases h0 : i + 1 = lvl
          · subst h0
            rw [if_pos rfl]; rw [at1_self] at this
            omega
          · rw [if_neg h0]
            omega
        · intro i hi
          have := hcnt.last i hi
          rw [hcs i]
          by_cases h0 : i = lvl
          · subst h0
            rw [if_pos rfl]; omega
          · rw [if_neg h0]; rw [at1_ne h0] at this
            omega
      · intro j hj
        exact List.getElem?_set_ne (by omega)
    · rw [if_neg hfit]
      have hne : l ≠ [] := by
        intro h
        refine hfit (fits_small hff hlok hit (fun _ => h) (fun _ => ?_))
        rw [h]; simp
      have h2 : (lvl == 0) = false → 2 ≤ l.length := by
        intro h
        by_cases h3 : 2 ≤ l.length
        · exact h3
        · refine absurd (fits_small hff hlok hit (fun h' => ?_) (fun _ => ?_)) hfit
          · rw [h] at h'; cases h'
          · omega
      obtain ⟨k, x, xs, left, g1, g2, g3, g4, g5, g6, g7, g8, g9, g10, g11⟩ :=
        build_split (cut b.disk.length) hlok hit (fun h => hin (hlf h)) (fun h => hrow (hlt h)) hne
          h2
      have hbl : (bpage (lvl == 0) l).leaf = (lvl == 0) := rfl
      rw [build_items hlok it]
      simp only [g1, g2, hbl]
      rw [if_neg g3]
      simp only [g4]
      -- the content of the level
      have hrne : rows ≠ [] := fun h => hne (hrows.2 h)
      rcases hpre with ⟨h1, _⟩ | ⟨_, hcon⟩
      · exact absurd h1 hrne
      generalize hc0 : keyOf c = kc at hcon
      cases hcon with
      | empty => exact absurd rfl hrne
      | step hL' hu' hne' hle' hroot' hkey' ha' =>
      rename_i L' a0 c0 _
      rw [hL] at hL'; cases hL'
      rw [hl] at hu'
      have hun : Under b.disk lvl true nx (l ++ [it]) (c0 ++ c) := by
        refine hu'.append ?_ ?_
        · have : (a0 ++ c0).isEmpty = false := by
            simpa [List.isEmpty_iff] using fun h => hne'
          rw [this] at hu
          exact hu
        · rw [← hc0]
          cases c with
          | nil => exact absurd rfl hc
          | cons t c => rfl
      rw [← List.take_append_drop k (l ++ [it]), g2] at hun
      have htne : (l ++ [it]).take k ≠ [] := by
        intro h
        rcases List.take_eq_nil_iff.1 h with h | h
        · omega
        · simp at h
      obtain ⟨a1, b1, hab, hua, hub⟩ := hun.split htne
      have ha1 : a1 ≠ [] := fun h => htne (hua.empty_iff.2 h)
      have hb1 : b1 ≠ [] := fun h => by have := hub.empty_iff.2 h; cases this
      have hkb := hub.key
      have hka : keyOf a1 = keyOf c0 := by
        have h3 : keyOf (a1 ++ b1) = keyOf (c0 ++ c) := by rw [hab]
        rw [keyOf_append ha1, keyOf_append hne'] at h3
        exact h3
      have hor : (keyOf b1).or nx = keyOf b1 := by rw [hkb]; rfl
      rw [hor] at hua
      -- the state with the page written
      generalize hb' : (⟨b.lvls.set lvl ⟨{ Page.empty (lvl == 0) with chunks :=
          [cutFirst (lvl == 0) (x :: xs)] }, some x.row.tup⟩,
          if lvl = b.root then lvl + 1 else b.root, b.disk ++ [left]⟩ : Bld) = b2
      have hb2l : b2.lvls = b.lvls.set lvl ⟨bpage (lvl == 0) (cutFirst (lvl == 0) (x :: xs)),
          some x.row.tup⟩ := by rw [← hb']; rfl
      have hb2d : b2.disk = b.disk ++ [left] := by rw [← hb']
      have hb2r : b2.root = if lvl = b.root then lvl + 1 else b.root := by rw [← hb']
      have hup : ∀ j, lvl + 1 ≤ j → b2.lvls[j]? = b.lvls[j]? := by
        intro j hj
        rw [hb2l]
        exact List.getElem?_set_ne (by omega)
      have hok2 : LvOk b2 := by
        rw [← hb']
        refine hok.set ?_ ?_ ?_
        · show bpage (lvl == 0) _ = bpage _ (Page.items (bpage (lvl == 0) _))
          rw [bpage_items]
        · show LOk _ (Page.items (bpage (lvl == 0) _))
          rw [bpage_items]; exact g11
        · intro t ht; cases ht; exact g7
      have hcut : (cutFirst (lvl == 0) (x :: xs)).length = xs.length + 1 := by
        cases (lvl == 0) <;> rfl
      have hxl := congrArg List.length g2
      rw [List.length_drop] at hxl
      simp only [List.length_append, List.length_cons, List.length_nil] at hxl
      have hcl : cnt b lvl = l.length := by unfold cnt; rw [hL]; simp [hl]
      have hcnt2 : Cnt b2 (fun i => if i = lvl then S i + 1 else S i) F N (at1 (lvl + 1)) := by
        have hcs : ∀ i, cnt b2 i = if i = lvl then xs.length + 1 else cnt b i := by
          intro i
          rw [← hb', cnt_set hlen i]
          have : (⟨{ Page.empty (lvl == 0) with chunks := [cutFirst (lvl == 0) (x :: xs)] },
              some x.row.tup⟩ : Lvl).page.items.length = xs.length + 1 := by
            show (Page.items (bpage (lvl == 0) _)).length = _
            rw [bpage_items]; exact hcut
          rw [this]
        refine ⟨?_, ?_, hcnt.fin, ?_⟩
        · have := hcnt.zero
          rw [hcs 0, at1_ne (by omega)]
          by_cases h0 : 0 = lvl
          · subst h0
            rw [if_pos rfl, if_pos rfl]; rw [at1_self] at this
            omega
          · rw [if_neg h0, if_neg h0]
            omega
        · intro i
          have := hcnt.succ i
          rw [hcs (i + 1)]
          by_cases h0 : i + 1 = lvl
          · have h5 := g10 (by rw [← h0]; rfl)
            subst h0
            rw [if_pos rfl, if_pos rfl, if_neg (by omega), at1_ne (by omega)]
            rw [at1_self] at this
            omega
          · rw [if_neg h0, if_neg h0]
            by_cases h1 : i = lvl
            · subst h1
              rw [if_pos rfl, at1_self]; rw [at1_ne (by omega)] at this
              omega
            · rw [if_neg h1, at1_ne (by omega)]
              omega
        · intro i hi
          have := hcnt.last i hi
          rw [hcs i]
          by_cases h0 : i = lvl
          · rw [if_pos h0]; omega
          · rw [if_neg h0]; rw [at1_ne h0] at this
            omega
      have hl32 : lvl + 1 < 32 := hcnt2.lvl hN (i := lvl) (by simp)
      -- above
      have hnone : L.key = none ↔ a0 = [] := by
        rw [hroot']
        constructor
        · intro h
          by_cases h3 : a0 = []
          · exact h3
          · have := ha'.le h3; omega
        · intro h
          subst h
          have := ha'.nil.1; omega
      obtain ⟨b3, S3, r1, r2, r3, r4, r5, d3, r6⟩ := ih (lvl + 1) (downItem L.key b.disk.length) b2 _
        (keyOf b1) a0 a1 (by omega) hl32 hok2
        (by
          by_cases h3 : a0 = []
          · left
            refine ⟨h3, ?_, ?_⟩
            · rw [hb2r, if_pos (hroot'.1 (hnone.2 h3))]
            · intro j L' hj hL'
              rw [hup j hj] at hL'
              rw [h3] at ha'
              exact ha'.nil.2 j L' hj hL'
          · right
            refine ⟨h3, ?_⟩
            rw [hka]
            refine ha'.frame hup ⟨[left], hb2d⟩ ?_
            rw [hb2r, if_neg]
            intro h
            exact h3 (hnone.1 (hroot'.2 h)))
        (by
          have hbody : (downItem L.key b.disk.length).row.tup.body = b.disk.length := by
            cases L.key <;> rfl
          have hq : b2.disk[(downItem L.key b.disk.length).row.tup.body]? = some left := by
            rw [hbody, hb2d]; simp
          rw [show a1 = a1 ++ [] by simp]
          refine .cons hq ?_ ?_ ha1 ?_ (.nil _ _ _)
          · rw [g6]
            show some x.row.tup.key = _
            rw [← hkb]; rfl
          · show Under b2.disk lvl true (keyOf b1) left.items a1
            rw [g5, hb2d]
            exact hua.mono _
          · cases hk : L.key with
            | none => left; rw [hnone.1 hk]; rfl
            | some t =>
              right
              rw [hka, hkey' t hk]
              rfl)
        (by
          have h3 : (lvl + 1 == 0) = false := rfl
          rw [h3]
          cases hk : L.key with
          | none => 
            have e : (downItem none b.disk.length).size = 8 := rfl
            exact ⟨by rw [e], Nat.le_refl _, fun h => (by cases h), by rw [e]; decide,
              Nat.zero_le _⟩
          | some t =>
            have h4 := hkl t hk
            have h5 := le_of_ma h4 (by decide)
            have h6 := ma_dvd t.klen
            refine ⟨?_, ?_, fun h => (by cases h), ?_, h4⟩
            · show (itemHdr false + ma t.klen) % 8 = 0
              have := itemHdr_dvd false; omega
            · show itemHdr false ≤ itemHdr false + ma t.klen
              omega
            · show itemHdr false + ma t.klen ≤ _
              omega)
        (fun _ => by
          cases L.key with
          | none => exact (by decide : itemHdr false + ma 0 ≤ 8)
          | some t => exact Nat.le_refl _)
        (fun _ h => by rw [hnone.2 h]; rfl)
        (fun h => by omega)
        hcnt2
      refine ⟨b3, S3, r1, r2, ?_, r4, ?_, ?_⟩
      · have hrr := r3.le (by simp [ha1])
        rw [List.append_assoc, hab, ← List.append_assoc]
        refine .step (L := ⟨bpage (lvl == 0) (cutFirst (lvl == 0) (x :: xs)), some x.row.tup⟩) ?_ ?_
          hb1 (by omega) ?_ ?_ r3
        · rw [r5 lvl (by omega), hb2l]
          exact List.getElem?_set_self hlen
        · show Under b3.disk lvl true nx (bpage (lvl == 0) _).items b1
          rw [bpage_items, r6, hb2d]
          exact ((hub.weaken.cut _).mono _).mono _
        · constructor
          · intro h; cases h
          · intro h; omega
        · intro t ht; cases ht; exact hkb
      · intro j hj
        rw [r5 j (by omega), hb2l]
        exact List.getElem?_set_ne (by omega)
      · exact ⟨[left] ++ d3, by rw [r6, hb2d, List.append_assoc]⟩

end Verif.PageSplit
