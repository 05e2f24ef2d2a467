import Verif.PageSplit.Merge

/-! # The items of waiting processes -/

namespace Verif.PageSplit

/-- Keys increase strictly. -/
def Sorted (l : List Item) : Prop := l.Pairwise (fun x y => x.row.tup.key < y.row.tup.key)

/-- The accepted waiters are among the items, each at its place; the last one first. -/
inductive AccOk : List Item → List Acc → List Waiter → Prop where
  | nil {out : List Item} : AccOk out [] []
  | cons {out rest : List Item} {acc : List Acc} {ys : List Waiter} {id : Nat} {y : Item} :
      AccOk out acc ys →
      AccOk (out ++ y :: rest) (⟨out.length, id, ma y.row.tup.klen⟩ :: acc) ((id, y) :: ys)

theorem AccOk.more {out : List Item} {acc : List Acc} {ys : List Waiter} (h : AccOk out acc ys)
    (l : List Item) : AccOk (out ++ l) acc ys := by
  cases h with
  | nil => exact .nil
  | cons h => rw [List.append_assoc]; exact .cons h

theorem AccOk.drop {s : List Item} {a : Acc} {acc : List Acc} {ys : List Waiter}
    (h : AccOk s (a :: acc) ys) : ∃ out rest y ys', s = out ++ y :: rest ∧ a.pos = out.length ∧
      ys = (a.id, y) :: ys' ∧ a.klen = ma y.row.tup.klen ∧ AccOk out acc ys' := by
  cases h with
  | cons h => exact ⟨_, _, _, _, rfl, rfl, rfl, rfl, h⟩

theorem AccOk.ids {s : List Item} {acc : List Acc} {ys : List Waiter} (h : AccOk s acc ys) :
    acc.map (·.id) = ys.map (·.1) := by
  induction h with
  | nil => rfl
  | cons _ ih => simp [ih]

theorem AccOk.klens {s : List Item} {acc : List Acc} {ys : List Waiter} (h : AccOk s acc ys) :
    acc.map (·.klen) = ys.map (fun y => ma y.2.row.tup.klen) := by
  induction h with
  | nil => rfl
  | cons _ ih => simp [ih]

/-- The state of the merge: `ys` are the accepted waiters, `rej` the others seen. -/
structure MwInv (inp : List Item) (ws : List Waiter) (ys rej : List Waiter) (m : Mw) : Prop where
  perm : (m.out ++ m.ins).Perm (inp ++ ys.map (·.2))
  sorted : Sorted (m.out ++ m.ins)
  wsorted : m.ws.Pairwise (fun x y => x.key ≤ y.key)
  below : m.finished = false → ∀ z ∈ m.out, ∀ y ∈ m.ws, z.row.tup.key ≤ y.key ∧
    (z.row.tup.key = y.key → m.last.any (fun x => x.row.tup.key == y.key) = true)
  acc : AccOk m.out m.acc ys
  all : (ys ++ rej ++ m.ws).Perm ws

theorem sorted_append {a b : List Item} : Sorted (a ++ b) ↔ Sorted a ∧ Sorted b ∧
    ∀ x ∈ a, ∀ y ∈ b, x.row.tup.key < y.row.tup.key := List.pairwise_append

theorem MwInv.emit {inp : List Item} {ws ys rej : List Waiter} {m : Mw}
    (h : MwInv inp ws ys rej m) {x : Item} {xs : List Item} (hi : m.ins = x :: xs)
    (hlt : m.finished = false → ∀ y ∈ m.ws, x.row.tup.key < y.key) :
    MwInv inp ws ys rej m.emit := by
  have he : m.emit = { m with ins := xs, out := m.out ++ [x] } := by
    unfold Mw.emit; rw [hi]
  rw [he]
  have hp := h.perm
  have hs := h.sorted
  rw [hi] at hp hs
  refine ⟨?_, ?_, h.wsorted, ?_, h.acc.more _, h.all⟩
  · show (m.out ++ [x] ++ xs).Perm _
    rw [List.append_assoc]; exact hp
  · show Sorted (m.out ++ [x] ++ xs)
    rw [List.append_assoc]; exact hs
  · intro hf z hz y hy
    have hz' : z ∈ m.out ∨ z = x := by
      have : z ∈ m.out ++ [x] := hz
      simpa using this
    rcases hz' with hz | rfl
    · exact h.below hf z hz y hy
    · have := hlt hf y hy
      exact ⟨Nat.le_of_lt this, fun h => by omega⟩

theorem MwInv.skip {inp : List Item} {ws ys rej : List Waiter} {m : Mw}
    (h : MwInv inp ws ys rej m) {y : Waiter} {zs : List Waiter} (hw : m.ws = y :: zs) :
    MwInv inp ws ys (rej ++ [y]) { m with ws := zs } := by
  have hws := h.wsorted
  have hall := h.all
  rw [hw] at hws hall
  refine ⟨h.perm, h.sorted, (List.pairwise_cons.1 hws).2, ?_, h.acc, ?_⟩
  · intro hf z hz y' hy'
    exact h.below hf z hz y' (by rw [hw]; exact List.mem_cons_of_mem _ hy')
  · show (ys ++ (rej ++ [y]) ++ zs).Perm ws
    have h1 : ys ++ (rej ++ [y]) ++ zs = ys ++ rej ++ (y :: zs) := by simp
    rw [h1]; exact hall

theorem MwInv.take {inp : List Item} {ws ys rej : List Waiter} {m : Mw} (single : Nat)
    (h : MwInv inp ws ys rej m) {y : Waiter} {zs : List Waiter} (hw : m.ws = y :: zs)
    (hlt : ∀ x ∈ m.ins, y.key < x.row.tup.key) (hf : m.finished = false) :
    ∃ ys' rej', MwInv inp ws ys' rej' (m.take single) := by
  have hws := h.wsorted
  have hall := h.all
  rw [hw] at hws hall
  have ht : m.take single =
      if (m.last.any (fun x => x.row.tup.key == y.key)) = true then { m with ws := zs }
      else if m.total + y.2.size + 2 * arr (m.count + 1) >
          blck - max (hikeysEnd true) (hdrSize + max m.maxKeyLen (ma y.2.row.tup.klen)) +
            single then { m with finished := true }
      else { m with
          ws := zs
          out := m.out ++ [y.2]
          acc := ⟨m.out.length, y.1, ma y.2.row.tup.klen⟩ :: m.acc
          last := some y.2
          total := m.total + y.2.size
          count := m.count + 1
          maxKeyLen := max m.maxKeyLen (ma y.2.row.tup.klen) } := by
    unfold Mw.take; rw [hw]
  rw [ht]
  by_cases h1 : (m.last.any (fun x => x.row.tup.key == y.key)) = true
  · rw [if_pos h1]
    exact ⟨ys, rej ++ [y], h.skip hw⟩
  · rw [if_neg h1]
    split
    · exact ⟨ys, rej, h.perm, h.sorted, h.wsorted, fun hf => (by cases hf), h.acc, h.all⟩
    · have hout : ∀ z ∈ m.out, z.row.tup.key < y.key := by
        intro z hz
        have h2 := h.below hf z hz y (by rw [hw]; simp)
        rcases Nat.lt_or_eq_of_le h2.1 with h3 | h3
        · exact h3
        · exact absurd (h2.2 h3) h1
      obtain ⟨s1, s2, s3⟩ := sorted_append.1 h.sorted
      refine ⟨y :: ys, rej, ?_, ?_, (List.pairwise_cons.1 hws).2, ?_, .cons h.acc, ?_⟩
      · show (m.out ++ [y.2] ++ m.ins).Perm (inp ++ y.2 :: ys.map (·.2))
        rw [List.append_assoc]
        refine List.perm_middle.trans ?_
        exact ((h.perm.cons y.2)).trans List.perm_middle.symm
      · show Sorted (m.out ++ [y.2] ++ m.ins)
        rw [List.append_assoc]
        refine sorted_append.2 ⟨s1, List.pairwise_cons.2 ⟨hlt, s2⟩, ?_⟩
        intro a ha b hb
        rcases List.mem_cons.1 hb with rfl | hb
        · exact hout a ha
        · exact s3 a ha b hb
      · intro _ z hz y' hy'
        have h2 := (List.pairwise_cons.1 hws).1 y' hy'
        have hz' : z ∈ m.out ∨ z = y.2 := by
          have : z ∈ m.out ++ [y.2] := hz
          simpa using this
        rcases hz' with hz | rfl
        · have h3 := hout z hz
          exact ⟨by omega, fun h => by omega⟩
        · refine ⟨h2, fun h => ?_⟩
          show (some y.2).any (fun x => x.row.tup.key == y'.key) = true
          rw [Option.any_some, beq_iff_eq]
          exact h
      · show (y :: ys ++ rej ++ zs).Perm ws
        refine List.Perm.trans ?_ hall
        rw [List.cons_append, List.cons_append]
        exact List.perm_middle.symm

theorem MwInv.step {inp : List Item} {ws ys rej : List Waiter} {m : Mw} (single : Nat)
    (h : MwInv inp ws ys rej m) (hm : m.more = true) :
    ∃ ys' rej', MwInv inp ws ys' rej' (m.step single) := by
  have hs := (sorted_append.1 h.sorted).2.1
  unfold Mw.step
  unfold Mw.more at hm
  cases hi : m.ins with
  | nil =>
    cases hw : m.ws with
    | nil => rw [hi, hw] at hm; simp at hm
    | cons y zs =>
      rw [hi, hw] at hm
      simp only [List.isEmpty_nil, Bool.not_true, List.isEmpty_cons, Bool.not_false, Bool.true_and,
        Bool.false_or] at hm
      exact h.take single hw (by rw [hi]; simp) (by simpa using hm)
  | cons x xs =>
    rw [hi] at hs
    have hx := (List.pairwise_cons.1 hs).1
    cases hw : m.ws with
    | nil => exact ⟨ys, rej, h.emit hi (fun _ y hy => by rw [hw] at hy; simp at hy)⟩
    | cons y zs =>
      dsimp only
      have hws := h.wsorted
      rw [hw] at hws
      cases hf : m.finished with
      | true =>
        rw [if_pos rfl]
        exact ⟨ys, rej, h.emit hi (fun hf' => by rw [hf] at hf'; cases hf')⟩
      | false =>
        rw [if_neg (by simp)]
        by_cases h1 : x.row.tup.key = y.key
        · rw [if_pos h1]
          have := h.skip hw
          rw [hi, hf] at this
          exact ⟨ys, _, this⟩
        · rw [if_neg h1]
          by_cases h2 : x.row.tup.key < y.key
          · rw [if_pos h2]
            refine ⟨ys, rej, h.emit hi (fun _ y' hy' => ?_)⟩
            rw [hw] at hy'
            rcases List.mem_cons.1 hy' with rfl | hy'
            · exact h2
            · have := (List.pairwise_cons.1 hws).1 y' hy'; omega
          · rw [if_neg h2]
            refine h.take single hw ?_ hf
            rw [hi]
            intro z hz
            rcases List.mem_cons.1 hz with rfl | hz
            · omega
            · have := hx z hz; omega

/-- What is left to do. -/
def Mw.meas (m : Mw) : Nat := m.ins.length + m.ws.length + if m.finished then 0 else 1

theorem Mw.emit_meas {m : Mw} {x : Item} {xs : List Item} (hi : m.ins = x :: xs) :
    m.emit.meas < m.meas := by
  unfold Mw.emit
  rw [hi]
  unfold Mw.meas
  rw [hi]
  simp only [List.length_cons]
  omega

theorem Mw.take_meas {m : Mw} (single : Nat) {y : Waiter} {zs : List Waiter}
    (hw : m.ws = y :: zs) (hf : m.finished = false) : (m.take single).meas < m.meas := by
  unfold Mw.take
  rw [hw]
  dsimp only
  unfold Mw.meas
  split
  · simp [hw]
  · split
    · simp [hw, hf]
    · simp [hw]

theorem Mw.step_meas {m : Mw} (single : Nat) (hm : m.more = true) :
    (m.step single).meas < m.meas := by
  unfold Mw.step
  unfold Mw.more at hm
  cases hi : m.ins with
  | nil =>
    cases hw : m.ws with
    | nil => rw [hi, hw] at hm; simp at hm
    | cons y zs =>
      rw [hi, hw] at hm
      exact Mw.take_meas single hw (by simpa using hm)
  | cons x xs =>
    cases hw : m.ws with
    | nil => exact Mw.emit_meas hi
    | cons y zs =>
      dsimp only
      split
      · exact Mw.emit_meas hi
      · rename_i hf
        split
        · unfold Mw.meas; simp [hw, hi]
        · split
          · exact Mw.emit_meas hi
          · exact Mw.take_meas single hw (by simpa using hf)

theorem MwInv.loop {inp : List Item} {ws : List Waiter} (single : Nat) (f : Nat) :
    ∀ {ys rej : List Waiter} {m : Mw}, MwInv inp ws ys rej m → m.meas ≤ f →
    ∃ ys' rej', MwInv inp ws ys' rej' (m.loop single f) ∧ (m.loop single f).more = false := by
  induction f with
  | zero =>
    intro ys rej m h hm
    refine ⟨ys, rej, h, ?_⟩
    unfold Mw.loop Mw.more
    unfold Mw.meas at hm
    have h1 : m.ins = [] := List.eq_nil_of_length_eq_zero (by omega)
    have h2 : m.ws = [] := List.eq_nil_of_length_eq_zero (by omega)
    rw [h1, h2]; rfl
  | succ f ih =>
    intro ys rej m h hm
    unfold Mw.loop
    by_cases hmo : m.more = true
    · rw [if_pos hmo]
      obtain ⟨ys', rej', h'⟩ := h.step single hmo
      have := Mw.step_meas single hmo
      exact ih h' (by omega)
    · rw [if_neg hmo]
      exact ⟨ys, rej, h, by simpa using hmo⟩

/-! ## Taking waiters back -/

/-- The items after the merge. -/
structure DropInv (inp : SplitItems) (ws ys : List Waiter) (acc : List Acc) (s : SplitItems) :
    Prop where
  perm : s.items.Perm (inp.items ++ ys.map (·.2))
  sorted : Sorted s.items
  acc : AccOk s.items acc ys
  all : ∃ rej, (ys ++ rej).Perm ws
  key : inp.maxKeyLen ≤ s.maxKeyLen
  keys : ∀ y ∈ ys, ma y.2.row.tup.klen ≤ s.maxKeyLen
  keyle : inp.maxKeyLen ≤ maxTup → (∀ y ∈ ws, y.2.row.tup.klen ≤ maxTup) → s.maxKeyLen ≤ maxTup
  hik : s.hikeySize = inp.hikeySize
  leaf : s.leaf = inp.leaf

theorem Sorted.erase {a b : List Item} {y : Item} (h : Sorted (a ++ y :: b)) :
    Sorted (a ++ b) := by
  obtain ⟨h1, h2, h3⟩ := sorted_append.1 h
  exact sorted_append.2 ⟨h1, (List.pairwise_cons.1 h2).2,
    fun x hx z hz => h3 x hx z (List.mem_cons_of_mem _ hz)⟩

theorem mwDrop_spec (inp : SplitItems) (half : Int → Int → Bool) (single : Nat)
    (ws : List Waiter) (acc : List Acc) : ∀ (s : SplitItems) (ys : List Waiter),
    DropInv inp ws ys acc s →
    ∃ ys', DropInv inp ws ys' (mwDrop inp half single acc s).1 (mwDrop inp half single acc s).2 ∧
      (ys' = [] ∨ ¬ (sizes (mwDrop inp half single acc s).2.items +
        arr (mwDrop inp half single acc s).2.items.length > single ∧
        canSucceed (mwDrop inp half single acc s).2 half = false)) := by
  induction acc with
  | nil =>
    intro s ys h
    have hy : ys = [] := by
      have := h.acc.ids
      simpa using this.symm
    exact ⟨ys, h, .inl hy⟩
  | cons a acc ih =>
    intro s ys h
    unfold mwDrop
    split
    · apply ih _ ys.tail
      obtain ⟨out, rest, y, ys', h1, h2, h3, h4, h5⟩ := h.acc.drop
      have hall := h.all
      have hperm := h.perm
      have hs := h.sorted
      subst h3
      have he : s.items.eraseIdx a.pos = out ++ rest := by
        rw [h1, h2, List.eraseIdx_append_of_length_le (Nat.le_refl _), Nat.sub_self]
        rfl
      have hfold : ∀ y ∈ ys', ma y.2.row.tup.klen ≤
          (acc.map (·.klen)).foldl max inp.maxKeyLen := by
        intro y hy
        apply mem_le_foldl_max
        rw [h5.klens]
        exact List.mem_map.2 ⟨y, hy, rfl⟩
      refine ⟨?_, ?_, ?_, ?_, ?_, ?_, ?_, h.hik, h.leaf⟩
      · show (s.items.eraseIdx a.pos).Perm (inp.items ++ ys'.map (·.2))
        rw [he]
        rw [h1] at hperm
        have h6 : (y :: (out ++ rest)).Perm (y :: (inp.items ++ ys'.map (·.2))) :=
          List.perm_middle.symm.trans (hperm.trans List.perm_middle)
        exact h6.cons_inv
      · show Sorted (s.items.eraseIdx a.pos)
        rw [he]
        rw [h1] at hs
        exact hs.erase
      · show AccOk (s.items.eraseIdx a.pos) acc ys'
        rw [he]
        exact h5.more _
      · obtain ⟨rej, hr⟩ := hall
        refine ⟨(a.id, y) :: rej, ?_⟩
        refine List.Perm.trans ?_ hr
        exact List.perm_middle
      · show inp.maxKeyLen ≤ if _ then _ else _
        split
        · exact le_foldl_max _ _
        · exact h.key
      · intro z hz
        show _ ≤ if _ then _ else _
        split
        · exact hfold z hz
        · exact h.keys z (List.mem_cons_of_mem _ hz)
      · intro h6 h7
        show (if _ then _ else _) ≤ _
        split
        · apply foldl_max_le _ _ _ h6
          intro k hk
          rw [h5.klens] at hk
          obtain ⟨z, hz, rfl⟩ := List.mem_map.1 hk
          obtain ⟨rej, hr⟩ := hall
          refine le_of_ma (h7 z ?_) (by decide)
          exact hr.subset (by simp [hz])
        · exact h.keyle h6 h7
    · rename_i hn
      exact ⟨ys, h, .inr hn⟩

theorem foldl_max_keys {out : List Item} {acc : List Acc} {ys : List Waiter}
    (h : AccOk out acc ys) (k : Nat) :
    ∀ y ∈ ys, ma y.2.row.tup.klen ≤ (acc.map (·.klen)).foldl max k := by
  intro y hy
  apply mem_le_foldl_max
  rw [h.klens]
  exact List.mem_map.2 ⟨y, hy, rfl⟩

/-- The merge gives the items and accepted waiters in order; it fits on a page or can be split. -/
theorem mergeWaited_spec (inp : SplitItems) (half : Int → Int → Bool) (ws : List Waiter)
    (hs : Sorted inp.items) (hw : ws.Pairwise (fun x y => x.key ≤ y.key)) :
    ∃ ys acc, DropInv inp ws ys acc (mergeWaited inp half ws).1 ∧
      (mergeWaited inp half ws).2.1 = ys.map (·.1) ∧
      ((mergeWaited inp half ws).2.2 = true ↔ sizes (mergeWaited inp half ws).1.items +
          arr (mergeWaited inp half ws).1.items.length >
          blck - max (hikeysEnd inp.leaf) (hdrSize + inp.hikeySize)) ∧
      (ys = [] ∨ (mergeWaited inp half ws).2.2 = false ∨
        canSucceed (mergeWaited inp half ws).1 half = true) := by
  obtain ⟨ys, rej, hl, hm⟩ := MwInv.loop (inp := inp.items) (ws := ws)
    (blck - max (hikeysEnd inp.leaf) (hdrSize + inp.hikeySize)) (inp.items.length + ws.length + 1)
    (ys := []) (rej := [])
    (m := ⟨inp.items, ws, false, [], [], none, sizes inp.items, inp.items.length, inp.maxKeyLen⟩)
    ⟨by simp, hs, hw, fun _ z hz => by simp at hz, .nil, by simp⟩
    (by unfold Mw.meas; simp)
  unfold mergeWaited
  dsimp only
  generalize Mw.loop _ _ _ = m at hl hm
  have hins : m.ins = [] := by
    unfold Mw.more at hm
    simp at hm
    exact hm.1
  have hp := hl.perm
  have hso := hl.sorted
  rw [hins, List.append_nil] at hp hso
  have hd : DropInv inp ws ys m.acc { inp with
      items := m.out
      maxKeyLen := (m.acc.map (·.klen)).foldl max inp.maxKeyLen } := by
    refine ⟨hp, hso, hl.acc, ⟨rej ++ m.ws, ?_⟩, le_foldl_max _ _, foldl_max_keys hl.acc _, ?_, rfl,
      rfl⟩
    · rw [← List.append_assoc]; exact hl.all
    · intro h6 h7
      apply foldl_max_le _ _ _ h6
      intro k hk
      rw [hl.acc.klens] at hk
      obtain ⟨z, hz, rfl⟩ := List.mem_map.1 hk
      refine le_of_ma (h7 z ?_) (by decide)
      exact hl.all.subset (by simp [hz])
  obtain ⟨ys', h1, h2⟩ := mwDrop_spec inp half
    (blck - max (hikeysEnd inp.leaf) (hdrSize + inp.hikeySize)) ws m.acc _ ys hd
  refine ⟨ys', _, h1, h1.acc.ids, by rw [decide_eq_true_iff], ?_⟩
  rcases h2 with h2 | h2
  · exact .inl h2
  · right
    by_cases h3 : sizes (mwDrop inp half (blck - max (hikeysEnd inp.leaf)
        (hdrSize + inp.hikeySize)) m.acc { inp with
          items := m.out
          maxKeyLen := (m.acc.map (·.klen)).foldl max inp.maxKeyLen }).2.items +
        arr (mwDrop inp half (blck - max (hikeysEnd inp.leaf)
        (hdrSize + inp.hikeySize)) m.acc { inp with
          items := m.out
          maxKeyLen := (m.acc.map (·.klen)).foldl max inp.maxKeyLen }).2.items.length >
        blck - max (hikeysEnd inp.leaf) (hdrSize + inp.hikeySize)
    · right
      cases hc : canSucceed _ half with
      | true => rfl
      | false => exact absurd ⟨h3, hc⟩ h2
    · left
      rw [decide_eq_false_iff_not]
      exact h3

end Verif.PageSplit
