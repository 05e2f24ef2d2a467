import Verif.PageSplit.Items

/-! # Putting an item on a page -/

namespace Verif.PageSplit

/-! ## A place for the split always exists -/

theorem max_prefix (P : Nat → Prop) [DecidablePred P] (n : Nat) (h1 : P 1) (hn : 1 ≤ n) :
    ∃ k, 1 ≤ k ∧ k ≤ n ∧ P k ∧ (k < n → ¬ P (k + 1)) := by
  induction n with
  | zero => omega
  | succ n ih =>
    by_cases hn0 : n = 0
    · subst hn0; exact ⟨1, Nat.le_refl _, Nat.le_refl _, h1, fun h => absurd h (by omega)⟩
    · obtain ⟨k, hk1, hk2, hk3, hk4⟩ := ih (by omega)
      by_cases hkn : k = n
      · subst hkn
        by_cases hP : P (k + 1)
        · exact ⟨k + 1, by omega, Nat.le_refl _, hP, fun h => absurd h (by omega)⟩
        · exact ⟨k, hk1, by omega, hk3, fun _ => hP⟩
      · exact ⟨k, hk1, by omega, hk3, fun _ => hk4 (by omega)⟩

theorem sizes_take_drop (l : List Item) (k : Nat) :
    sizes (l.take k) + sizes (l.drop k) = sizes l := by
  rw [← sizes_append, List.take_append_drop]

theorem sizes_take_succ (l : List Item) (k : Nat) (h : k < l.length) :
    sizes (l.take (k + 1)) = sizes (l.take k) + (l[k]).size := by
  rw [List.take_succ_eq_append_getElem h, sizes_append]
  rfl

/-- If all items but one fit on a page, they and this one can be split over two. -/
theorem split_exists (s : SplitItems) (hle : ∀ x ∈ s.items, x.size ≤ 2704)
    (hm : s.maxKeyLen ≤ maxTup) (hh : s.hikeySize ≤ maxTup) (hn : 2 ≤ s.items.length)
    (hfit : max (hikeysEnd s.leaf) (hdrSize + s.hikeySize) + sizes s.items +
      arr (s.items.length - 1) ≤ blck + 2704) : ∃ k, ValidSplit s k := by
  have he := hikeysEnd_le s.leaf
  have hget : ∀ k (h : k < s.items.length), (s.items[k]).size ≤ 2704 :=
    fun k h => hle _ (List.getElem_mem _)
  obtain ⟨k, hk1, hk2, hk3, hk4⟩ := max_prefix
    (fun k => max (hikeysEnd s.leaf) (hdrSize + s.maxKeyLen) + sizes (s.items.take k) + arr k ≤
      blck) (s.items.length - 1) (by
        have h1 := sizes_take_succ s.items 0 (by omega)
        have h2 := hget 0 (by omega)
        have h3 : sizes (s.items.take 0) = 0 := rfl
        have h4 := arr_one
        rw [Nat.zero_add] at h1
        unfold hdrSize blck maxTup at *
        omega) (by omega)
  have htd := sizes_take_drop s.items k
  refine ⟨k, hk1, by omega, hk3, ?_⟩
  by_cases hlast : k = s.items.length - 1
  · subst hlast
    have h1 := sizes_take_succ s.items (s.items.length - 1) (by omega)
    have h2 := hget (s.items.length - 1) (by omega)
    rw [show s.items.length - 1 + 1 = s.items.length by omega, List.take_length] at h1
    rw [show s.items.length - (s.items.length - 1) = 1 by omega, arr_one]
    unfold hdrSize blck maxTup at *
    omega
  · have h1 := hk4 (by omega)
    have h2 := sizes_take_succ s.items k (by omega)
    have h3 := hget k (by omega)
    have h4 := arr_split k s.items.length (by omega) (by omega)
    unfold hdrSize blck maxTup at *
    omega

/-! ## Chunks -/

/-- A place in a list of chunks. -/
structure At (cs : List (List Item)) (off c k : Nat) (A : List (List Item)) (l : List Item)
    (B : List (List Item)) : Prop where
  eq : cs = A ++ l :: B
  len : A.length = c
  off : A.flatten.length + k = off
  le : k ≤ l.length

theorem locate_at (cs : List (List Item)) (off : Nat) (hne : cs ≠ [])
    (ho : off ≤ cs.flatten.length) :
    ∃ A l B, At cs off (locate cs off).1 (locate cs off).2 A l B ∧
      (off < cs.flatten.length → (locate cs off).2 < l.length) := by
  induction cs generalizing off with
  | nil => exact absurd rfl hne
  | cons c cs ih =>
    cases cs with
    | nil =>
      refine ⟨[], c, [], ⟨rfl, rfl, ?_, ?_⟩, ?_⟩
      · simp [locate]
      · simpa [locate] using ho
      · intro h; simpa [locate] using h
    | cons c' cs =>
      unfold locate
      by_cases h : off < c.length
      · rw [if_pos h]
        exact ⟨[], c, c' :: cs, ⟨rfl, rfl, by simp, by simp; omega⟩, fun _ => h⟩
      · rw [if_neg h]
        have ho' : off - c.length ≤ (c' :: cs).flatten.length := by
          rw [List.flatten_cons, List.length_append] at ho; omega
        obtain ⟨A, l, B, ha, hlt⟩ := ih (off - c.length) (by simp) ho'
        refine ⟨c :: A, l, B, ⟨by rw [ha.eq]; rfl, by simp [ha.len], ?_, ha.le⟩, ?_⟩
        · have := ha.off
          rw [List.flatten_cons, List.length_append]; dsimp only; omega
        · intro h'
          apply hlt
          rw [List.flatten_cons, List.length_append] at h'; omega

theorem base_eq (cs : List (List Item)) (c : Nat) : base cs c = (cs.take c).flatten.length := by
  unfold base; rw [List.length_flatten]

theorem chunkOf_at (cs : List (List Item)) (off want : Nat) (inside : Bool) (hne : cs ≠ [])
    (ho : off ≤ cs.flatten.length) :
    ∃ A l B, At cs off (chunkOf cs off want inside).1 (chunkOf cs off want inside).2 A l B ∧
      (inside = true → off < cs.flatten.length → (chunkOf cs off want inside).2 < l.length) := by
  unfold chunkOf
  split
  · rename_i h
    obtain ⟨hi, hw, hb, hl⟩ := h
    refine ⟨cs.take want, cs[want], cs.drop (want + 1), ⟨?_, ?_, ?_, ?_⟩, ?_⟩
    · rw [List.getElem_cons_drop, List.take_append_drop]
    · rw [List.length_take]; dsimp only; omega
    · rw [← base_eq]; dsimp only; omega
    · rw [List.getD_eq_getElem?_getD, List.getElem?_eq_getElem hw, Option.getD_some] at hl
      dsimp only; omega
    · intro h; rw [hi] at h; cases h
  · obtain ⟨A, l, B, h1, h2⟩ := locate_at cs off hne ho
    exact ⟨A, l, B, h1, fun _ => h2⟩

section
variable {cs : List (List Item)} {off c k : Nat} {A : List (List Item)} {l : List Item}
  {B : List (List Item)}

theorem At.getD (h : At cs off c k A l B) : cs.getD c [] = l := by
  rw [h.eq, ← h.len]; simp

theorem At.set (h : At cs off c k A l B) (l' : List Item) :
    setChunk cs c l' = A ++ l' :: B := by
  unfold setChunk
  rw [h.eq, ← h.len]; simp

theorem At.take (h : At cs off c k A l B) : cs.flatten.take off = A.flatten ++ l.take k := by
  rw [h.eq, ← h.off, List.flatten_append, List.flatten_cons, List.take_length_add_append,
    List.take_append_of_le_length h.le]

theorem At.drop (h : At cs off c k A l B) : cs.flatten.drop off = l.drop k ++ B.flatten := by
  rw [h.eq, ← h.off, List.flatten_append, List.flatten_cons, List.drop_length_add_append,
    List.drop_append_of_le_length h.le]

theorem At.drop_succ (h : At cs off c k A l B) (hk : k < l.length) :
    cs.flatten.drop (off + 1) = l.drop (k + 1) ++ B.flatten := by
  rw [h.eq, ← h.off, List.flatten_append, List.flatten_cons, Nat.add_assoc,
    List.drop_length_add_append, List.drop_append_of_le_length (by omega)]

theorem At.get (h : At cs off c k A l B) (hk : k < l.length) : cs.flatten[off]? = l[k]? := by
  rw [h.eq, ← h.off, List.flatten_append, List.flatten_cons, List.getElem?_append_right (by omega),
    Nat.add_sub_cancel_left, List.getElem?_append_left hk]

theorem At.sum (h : At cs off c k A l B) : (cs.map chunkSize).sum =
    (A.map chunkSize).sum + chunkSize l + (B.map chunkSize).sum := by
  rw [h.eq]; simp; omega

theorem At.arr_le (h : At cs off c k A l B) :
    arr (cs.flatten.length + 1) + arr l.length ≤
      (cs.map (fun c => arr c.length)).sum + arr (l.length + 1) := by
  have h1 := arr_chunks A
  have h2 := arr_chunks B
  rw [h.eq]
  simp only [List.flatten_append, List.flatten_cons, List.length_append, List.map_append,
    List.map_cons, List.sum_append, List.sum_cons]
  have h3 := arr_add (A.flatten.length + B.flatten.length) (l.length + 1)
  have h4 := arr_add A.flatten.length B.flatten.length
  rw [show A.flatten.length + (l.length + B.flatten.length) + 1 =
    A.flatten.length + B.flatten.length + (l.length + 1) by omega]
  omega

end

/-! ## Splitting a chunk -/

theorem splitChunk_eq (p : Page) (c : Nat) (k : Option Nat) :
    ∃ cs, splitChunk p c k = { p with chunks := cs } ∧ cs.flatten = p.chunks.flatten ∧
      (p.chunks ≠ [] → cs ≠ []) ∧ (p.dataSize ≤ blck → (splitChunk p c k).dataSize ≤ blck) := by
  unfold splitChunk
  cases k with
  | none => exact ⟨p.chunks, rfl, rfl, fun h => h, fun h => h⟩
  | some k =>
    cases hc : p.chunks[c]? with
    | none => exact ⟨p.chunks, by simp, rfl, fun h => h, by simp⟩
    | some l =>
      dsimp only
      split
      · rename_i h
        obtain ⟨hk0, hkl, hd⟩ := h
        obtain ⟨hlt, hget⟩ := List.getElem?_eq_some_iff.1 hc
        have hcs : p.chunks = p.chunks.take c ++ l :: p.chunks.drop (c + 1) := by
          rw [← hget, List.getElem_cons_drop, List.take_append_drop]
        refine ⟨_, rfl, ?_, by simp, ?_⟩
        · conv => rhs; rw [hcs]
          simp only [List.flatten_append, List.flatten_cons, List.flatten_nil, List.append_nil,
            List.append_assoc]
          rw [← List.append_assoc (l.take k), List.take_append_drop]
        · intro _
          have h1 : (p.chunks.map chunkSize).sum = ((p.chunks.take c).map chunkSize).sum +
              chunkSize l + ((p.chunks.drop (c + 1)).map chunkSize).sum := by
            conv => lhs; rw [hcs]
            simp; omega
          have h2 : chunkSize (l.take k) + chunkSize (l.drop k) + arr l.length =
              chunkSize l + (arr k + arr (l.length - k)) := by
            unfold chunkSize
            have := sizes_take_drop l k
            rw [List.length_take, List.length_drop, Nat.min_eq_left (by omega)]
            omega
          have h3 := arr_add k (l.length - k)
          rw [show k + (l.length - k) = l.length by omega] at h3
          unfold Page.dataSize at hd ⊢
          dsimp only
          simp only [List.map_append, List.map_cons, List.map_nil, List.sum_append, List.sum_cons,
            List.sum_nil]
          omega
      · exact ⟨p.chunks, rfl, rfl, fun h => h, fun h => h⟩

theorem splitChunk_ok (p : Page) (c : Nat) (k : Option Nat) (h : p.Ok) :
    (splitChunk p c k).Ok ∧ (splitChunk p c k).items = p.items ∧ (splitChunk p c k).hi = p.hi ∧
      (splitChunk p c k).leaf = p.leaf := by
  obtain ⟨cs, h1, h2, h3, h4⟩ := splitChunk_eq p c k
  have hr := h4 h.room
  rw [h1] at hr ⊢
  have hi : ({ p with chunks := cs } : Page).items = p.items := h2
  exact ⟨⟨h.start, hr, by rw [hi]; exact h.items, by rw [hi]; exact h.inner, h.hikey, by rw [hi]; exact h.keys, h.hikey_le,
    h.maxKey, h3 h.chunks⟩, hi, rfl, rfl⟩

/-! ## The operation -/

/-- The pages in place of a page `p`: one with the same high key, or two, divided by the first key
of the second one. -/
def Divided (hi : Option Tup) : List Page → Prop
  | [q] => q.hi = hi
  | [l, r] => r.hi = hi ∧ l.items ≠ [] ∧ ∃ x, r.items.head? = some x ∧ l.hi = some x.row.tup
  | _ => False

/-- What an item must be like to be put at `off`. -/
structure PutPre (p : Page) (off : Nat) (new : Item) (replace : Bool) : Prop where
  size : new.size = need p.leaf new.row.tup
  len : new.row.tup.len ≤ maxTup
  klen : new.row.tup.klen ≤ maxTup
  le : off ≤ p.items.length
  rep : replace = true → off < p.items.length ∧ p.leaf = true
  pos : p.leaf = false → 0 < off
  same : p.leaf = false → new.row.tup.len = new.row.tup.klen

theorem PutPre.itemOk {p : Page} {off : Nat} {new : Item} {replace : Bool}
    (h : PutPre p off new replace) : ItemOk p.leaf new := by
  have h1 := ma_dvd new.row.tup.len
  have h2 := le_of_ma h.len (by decide)
  have h3 := itemHdr_dvd p.leaf
  have h4 := h.size
  unfold need at h4
  refine ⟨by omega, by omega, ?_, by omega, h.klen⟩
  intro hl
  have := h.size
  rw [hl] at this
  exact Nat.le_of_eq this.symm

/-- The items before the place, and those after it. -/
def after (l : List Item) (off : Nat) (replace : Bool) : List Item :=
  l.drop (if replace then off + 1 else off)

theorem keyed_append (leaf : Bool) (a : List Item) (x : Item) (b : List Item)
    (h : leaf = false → a ≠ []) : keyed leaf (a ++ x :: b) = keyed leaf a ++ x :: b := by
  unfold keyed
  cases leaf with
  | true => rfl
  | false =>
    cases a with
    | nil => exact absurd rfl (h rfl)
    | cons y a => rfl

theorem keyed_take (leaf : Bool) (l : List Item) (n : Nat) :
    ∀ x ∈ keyed leaf (l.take n), x ∈ keyed leaf l := by
  intro x hx
  unfold keyed at *
  cases leaf with
  | true => exact List.mem_of_mem_take hx
  | false =>
    cases l with
    | nil => simp at hx
    | cons y l =>
      cases n with
      | zero => simp at hx
      | succ n => simp at hx; simp; exact List.mem_of_mem_take hx

theorem keyed_drop (leaf : Bool) (l : List Item) (n : Nat) (h : leaf = false → 0 < n) :
    ∀ x ∈ l.drop n, x ∈ keyed leaf l := by
  intro x hx
  unfold keyed
  cases leaf with
  | true => exact List.mem_of_mem_drop hx
  | false =>
    cases l with
    | nil => simp at hx
    | cons y l =>
      cases n with
      | zero => have := h rfl; omega
      | succ n => simp at hx; simp; exact List.mem_of_mem_drop hx

/-- The room wanted. -/
def want (p : Page) (n off size : Nat) (replace : Bool) : Int :=
  if replace then (size : Int) - ((p.items[off]?.map (·.size)).getD 0 : Nat)
  else (size : Int) + arr (n + 1) - arr n

theorem fitsItem_spec (bridge : Bool) (o : Orc) (p : Page) (e : Env) (next n off size : Nat)
    (replace : Bool) :
    (fitsItem bridge o p e next n off size replace = .asIs →
      want p n off size replace ≤ (blck : Int) - p.dataSize) ∧
    (fitsItem bridge o p e next n off size replace = .compact →
      p.leaf = true ∧ bridge = false ∧ want p n off size replace ≤ (blck : Int) - p.dataSize +
        vacated e (some next) (if replace then some off else none) 0 p.items) := by
  have h : ∀ less : Int, ∀ w : Int, ∀ v : Nat,
      let f := (if (blck : Int) - p.dataSize ≥ w then Fit.asIs
        else if (!p.leaf || bridge) = true then .split
        else if (blck : Int) - p.dataSize + o.vac - less < w then .split
        else if (blck : Int) - p.dataSize + v ≥ w then .compact else .split)
      (f = .asIs → w ≤ (blck : Int) - p.dataSize) ∧
      (f = .compact → p.leaf = true ∧ bridge = false ∧ w ≤ (blck : Int) - p.dataSize + v) := by
    intro less w v f
    by_cases h1 : (blck : Int) - p.dataSize ≥ w
    · have : f = .asIs := if_pos h1
      rw [this]
      exact ⟨fun _ => h1, fun h => by cases h⟩
    · by_cases h2 : (!p.leaf || bridge) = true
      · have : f = .split := by show (if _ then _ else _) = _; rw [if_neg h1, if_pos h2]
        rw [this]
        exact ⟨fun h => (by cases h), fun h => (by cases h)⟩
      · by_cases h3 : (blck : Int) - p.dataSize + o.vac - less < w
        · have : f = .split := by
            show (if _ then _ else _) = _; rw [if_neg h1, if_neg h2, if_pos h3]
          rw [this]
          exact ⟨fun h => (by cases h), fun h => (by cases h)⟩
        · by_cases h4 : (blck : Int) - p.dataSize + v ≥ w
          · have : f = .compact := by
              show (if _ then _ else _) = _; rw [if_neg h1, if_neg h2, if_neg h3, if_pos h4]
            rw [this]
            refine ⟨fun h => (by cases h), fun _ => ⟨?_, ?_, h4⟩⟩
            · cases hl : p.leaf
              · rw [hl] at h2; simp at h2
              · rfl
            · cases bridge
              · rfl
              · simp at h2
          · have : f = .split := by
              show (if _ then _ else _) = _; rw [if_neg h1, if_neg h2, if_neg h3, if_neg h4]
            rw [this]
            exact ⟨fun h => (by cases h), fun h => (by cases h)⟩
  exact h _ _ _

theorem fitsItem_asIs (bridge : Bool) (o : Orc) (p : Page) (e : Env) (next n off size : Nat)
    (replace : Bool) (h : want p n off size replace ≤ (blck : Int) - p.dataSize) :
    fitsItem bridge o p e next n off size replace = .asIs := if_pos h

/-- The as-is case. -/
theorem putAsIs_ok (bridge : Bool) (o : Orc) {p : Page} {e : Env} {next : Nat} {off : Nat}
    {new : Item} {replace : Bool} (hp : p.Ok) (hn : PutPre p off new replace)
    (hk : replace = true → ma new.row.tup.klen ≤ ma p.maxKey) {c k : Nat}
    {A B : List (List Item)} {l : List Item} (ha : At p.chunks off c k A l B)
    (hlt : replace = true → k < l.length)
    (hfit : fitsItem bridge o p e next l.length off new.size replace = .asIs) :
    (putAsIs o p c k new replace).Ok ∧ (putAsIs o p c k new replace).hi = p.hi ∧
    (putAsIs o p c k new replace).leaf = p.leaf ∧
    ∃ n', n'.row = new.row ∧ new.size ≤ n'.size ∧
      (∀ old, replace = true → p.items[off]? = some old → old.size ≤ n'.size) ∧
      (putAsIs o p c k new replace).items = p.items.take off ++ n' :: after p.items off replace := by
  have hnew := hn.itemOk
  have hsum := ha.sum
  have hroom := hp.room
  have hd := (fitsItem_spec bridge o p e next l.length off new.size replace).1 hfit
  unfold want at hd
  unfold putAsIs
  rw [ha.getD]
  dsimp only
  cases replace with
  | false =>
    rw [if_neg (by simp)] at hd
    simp only [Bool.false_eq_true, if_false]
    have hq : ({ p with
        chunks := setChunk p.chunks c (l.take k ++ new :: l.drop k)
        maxKey := max p.maxKey (ma new.row.tup.klen) } : Page).items =
        p.items.take off ++ new :: p.items.drop off := by
      unfold Page.items
      dsimp only
      rw [ha.set, ha.take, ha.drop]
      simp
    have hok : ({ p with
        chunks := setChunk p.chunks c (l.take k ++ new :: l.drop k)
        maxKey := max p.maxKey (ma new.row.tup.klen) } : Page).Ok := by
      refine ⟨hp.start, ?_, ?_, ?_, hp.hikey, ?_, ?_, ?_, ?_⟩
      · have hds : p.dataSize = p.start + (p.chunks.map chunkSize).sum := rfl
        show p.start + ((setChunk p.chunks c _).map chunkSize).sum ≤ blck
        rw [ha.set]
        have h1 : chunkSize (l.take k ++ new :: l.drop k) =
            arr (l.length + 1) + sizes l + new.size := by
          unfold chunkSize
          have := sizes_take_drop l k
          have hle := ha.le
          rw [sizes_append, sizes_cons, List.length_append, List.length_cons, List.length_take,
            List.length_drop, Nat.min_eq_left hle, show k + (l.length - k + 1) = l.length + 1 by omega]
          omega
        have h2 : chunkSize l = arr l.length + sizes l := rfl
        have h3 := hsum
        simp only [List.map_append, List.map_cons, List.sum_append, List.sum_cons]
        omega
      · rw [hq]
        intro x hx
        simp only [List.mem_append, List.mem_cons] at hx
        rcases hx with hx | rfl | hx
        · exact hp.items x (List.mem_of_mem_take hx)
        · exact hnew
        · exact hp.items x (List.mem_of_mem_drop hx)
      · rw [hq]
        intro hf x hx
        have hne : p.leaf = false → p.items.take off ≠ [] := by
          intro h
          have h1 := hn.pos h
          have h2 := hn.le
          intro h3
          rcases List.take_eq_nil_iff.1 h3 with h3 | h3
          · omega
          · rw [h3, List.length_nil] at h2; omega
        rw [keyed_append _ _ _ _ hne] at hx
        simp only [List.mem_append, List.mem_cons] at hx
        rcases hx with hx | rfl | hx
        · exact hp.inner hf x (keyed_take _ _ _ x hx)
        · have h1 := hn.size
          have h2 := hn.same hf
          have h3 : p.leaf = false := hf
          rw [h3] at h1
          unfold need at h1
          rw [h2] at h1
          exact Nat.le_of_eq h1.symm
        · exact hp.inner hf x (keyed_drop _ _ _ hn.pos x hx)
      · rw [hq]
        intro x hx
        have hne : p.leaf = false → p.items.take off ≠ [] := by
          intro h
          have h1 := hn.pos h
          have h2 := hn.le
          intro h3
          rcases List.take_eq_nil_iff.1 h3 with h3 | h3
          · omega
          · rw [h3, List.length_nil] at h2; omega
        rw [keyed_append _ _ _ _ hne] at hx
        dsimp only
        rw [ma_max, ma_ma]
        simp only [List.mem_append, List.mem_cons] at hx
        rcases hx with hx | rfl | hx
        · have := hp.keys x (keyed_take _ _ _ x hx); omega
        · omega
        · have := hp.keys x (keyed_drop _ _ _ hn.pos x hx); omega
      · have := hp.hikey_le
        dsimp only
        rw [ma_max]
        exact Nat.le_trans this (Nat.le_max_left _ _)
      · have h1 := hp.maxKey
        have h2 := le_of_ma hn.klen (by decide)
        dsimp only
        omega
      · dsimp only
        rw [ha.set]
        simp
    obtain ⟨h1, h2, h3, h4⟩ := splitChunk_ok _ c o.split hok
    exact ⟨h1, h3, h4, new, rfl, Nat.le_refl _, fun _ h => (by cases h), by rw [h2, hq]; rfl⟩
  | true =>
    rw [if_pos rfl] at hd
    simp only [if_true]
    have hkl := hlt rfl
    obtain ⟨hoff, hleaf⟩ := hn.rep rfl
    have hget : p.items[off]? = some l[k] := by
      rw [← List.getElem?_eq_getElem hkl]; exact ha.get hkl
    rw [hget, Option.map_some, Option.getD_some] at hd
    have holdk : (p.items[off]) = l[k] := by
      have := hget
      rw [List.getElem?_eq_getElem hoff] at this
      exact Option.some.inj this
    have hold := hp.items (l[k]) (by rw [← holdk]; exact List.getElem_mem _)
    rw [List.getElem?_eq_getElem hkl, Option.map_some, Option.getD_some]
    have hl : l = l.take k ++ l[k] :: l.drop (k + 1) := by
      rw [List.getElem_cons_drop, List.take_append_drop]
    have hset : ∀ y : Item, l.set k y = l.take k ++ y :: l.drop (k + 1) := by
      intro y
      rw [List.set_eq_take_append_cons_drop, if_pos hkl]
    rw [hset]
    have hq : ({ p with
        chunks := setChunk p.chunks c (l.take k ++ { new with size := max new.size l[k].size } ::
          l.drop (k + 1)) } : Page).items =
        p.items.take off ++ { new with size := max new.size l[k].size } ::
          p.items.drop (off + 1) := by
      unfold Page.items
      dsimp only
      rw [ha.set, ha.take, ha.drop_succ hkl]
      simp
    have hn' : ItemOk p.leaf { new with size := max new.size l[k].size } := by
      refine ⟨?_, ?_, ?_, ?_, hnew.key⟩
      · have h1 := hnew.dvd; have h2 := hold.dvd; dsimp only; omega
      · have h1 := hnew.lo; dsimp only; omega
      · intro h
        exact Nat.le_trans (hnew.need h) (Nat.le_max_left _ _)
      · have h1 := hnew.hi; have h2 := hold.hi; dsimp only; omega
    have hok : ({ p with
        chunks := setChunk p.chunks c (l.take k ++ { new with size := max new.size l[k].size } ::
          l.drop (k + 1)) } : Page).Ok := by
      refine ⟨hp.start, ?_, ?_, (fun h => by rw [hleaf] at h; cases h), hp.hikey, ?_, hp.hikey_le,
        hp.maxKey, ?_⟩
      · have hds : p.dataSize = p.start + (p.chunks.map chunkSize).sum := rfl
        show p.start + ((setChunk p.chunks c _).map chunkSize).sum ≤ blck
        rw [ha.set]
        have h1 : chunkSize (l.take k ++ { new with size := max new.size l[k].size } ::
            l.drop (k + 1)) + l[k].size = chunkSize l + max new.size l[k].size := by
          have h2 : chunkSize l = chunkSize (l.take k ++ l[k] :: l.drop (k + 1)) := by rw [← hl]
          rw [h2]
          unfold chunkSize
          rw [sizes_append, sizes_cons, sizes_append, sizes_cons]
          simp only [List.length_append, List.length_cons]
          omega
        simp only [List.map_append, List.map_cons, List.sum_append, List.sum_cons]
        omega
      · rw [hq]
        intro x hx
        simp only [List.mem_append, List.mem_cons] at hx
        rcases hx with hx | rfl | hx
        · exact hp.items x (List.mem_of_mem_take hx)
        · exact hn'
        · exact hp.items x (List.mem_of_mem_drop hx)
      · rw [hq]
        intro x hx
        have hx' := keyed_sub _ _ x hx
        simp only [List.mem_append, List.mem_cons] at hx'
        have hkeys := hp.keys
        unfold keyed at hkeys
        rw [hleaf, if_pos rfl] at hkeys
        rcases hx' with hx | rfl | hx
        · exact hkeys x (List.mem_of_mem_take hx)
        · exact hk rfl
        · exact hkeys x (List.mem_of_mem_drop hx)
      · dsimp only
        rw [ha.set]
        simp
    obtain ⟨h1, h2, h3, h4⟩ := splitChunk_ok _ c o.split hok
    refine ⟨h1, h3, h4, { new with size := max new.size l[k].size }, rfl, Nat.le_max_left _ _, ?_, by rw [h2, hq]; rfl⟩
    intro old _ ho
    rw [hget] at ho
    cases ho
    exact Nat.le_max_right _ _

/-! ### Compaction -/

theorem compact_ok (o : Orc) {p : Page} (hp : p.Ok) {l : List Item}
    (hl : ∀ x ∈ l, ItemOk p.leaf x) (hin : InnerOk p.leaf l)
    (hfit : p.start + sizes l + arr l.length ≤ blck) :
    ∃ q, compact o p l = .ok [q] ∧ q.Ok ∧ q.items = l ∧ q.hi = p.hi ∧ q.leaf = p.leaf := by
  have hst := hp.start
  obtain ⟨q, h1, h2, h3, h4, h5⟩ := reorg_ok o.cutL p.leaf p.hi l hl hin hp.hikey
    (by rw [Page.hikeySize_eq] at hst; rw [← hst]; exact hfit)
  refine ⟨q, ?_, h2, h3, h4, h5⟩
  unfold compact
  rw [h1]

/-! ### Split -/

theorem cutFirst_rows (leaf : Bool) (l : List Item) :
    (cutFirst leaf l).map (·.row) = l.map (·.row) := by
  cases l with
  | nil => rfl
  | cons x l => cases leaf <;> rfl

theorem cutFirst_ok {leaf : Bool} {l : List Item} (h : ∀ x ∈ l, ItemOk leaf x) :
    (∀ x ∈ cutFirst leaf l, ItemOk leaf x) ∧ sizes (cutFirst leaf l) ≤ sizes l ∧
      (cutFirst leaf l).length = l.length := by
  cases l with
  | nil => exact ⟨by simp [cutFirst], Nat.le_refl _, rfl⟩
  | cons x l =>
    cases leaf with
    | true => exact ⟨h, Nat.le_refl _, rfl⟩
    | false =>
      have hx := h x (by simp)
      refine ⟨?_, ?_, rfl⟩
      · intro y hy
        rcases List.mem_cons.1 hy with rfl | hy
        · exact ⟨itemHdr_dvd false, Nat.le_refl _, fun h => absurd h (by decide), Nat.le_add_right _ _, hx.key⟩
        · exact h y (by simp [hy])
      · have h1 := hx.lo
        show itemHdr false + sizes l ≤ x.size + sizes l
        omega

/-- A split of well-formed items for which a place exists. -/
theorem doSplit_ok (o : Orc) {p : Page} (hp : p.Ok) {s : SplitItems}
    (hl : ∀ x ∈ s.items, ItemOk p.leaf x) (hin : InnerOk p.leaf s.items) (hleaf : s.leaf = p.leaf)
    (hh : s.hikeySize = p.hikeySize)
    (hm : ∀ x ∈ s.items.tail, x.row.tup.klen ≤ s.maxKeyLen)
    (hex : ∃ k, ValidSplit s k) :
    ∃ l r, doSplit o p s = .ok [l, r] ∧ l.Ok ∧ r.Ok ∧ l.leaf = p.leaf ∧ r.leaf = p.leaf ∧
      Divided p.hi [l, r] ∧ (p.leaf = true → l.items ++ r.items = s.items) ∧
      (l.items ++ r.items).map (·.row) = s.items.map (·.row) := by
  have hf := findLocation_spec s (fun x hx => (hl x hx).pos) o.target o.pick
  unfold doSplit
  cases hloc : findLocation s o.target o.pick with
  | none => rw [hloc] at hf; exact absurd hex hf
  | some k =>
    rw [hloc] at hf
    obtain ⟨hk0, hkn, hL, hR⟩ := hf
    dsimp only
    cases hdrop : s.items.drop k with
    | nil =>
      have := congrArg List.length hdrop
      rw [List.length_drop] at this
      simp at this
      omega
    | cons x xs =>
      have hmem : ∀ y ∈ x :: xs, y ∈ s.items := by
        intro y hy; rw [← hdrop] at hy; exact List.mem_of_mem_drop hy
      have hlr : ∀ y ∈ x :: xs, ItemOk p.leaf y := fun y hy => hl y (hmem y hy)
      obtain ⟨hc1, hc2, hc3⟩ := cutFirst_ok hlr
      have hlen : (x :: xs).length = s.items.length - k := by rw [← hdrop, List.length_drop]
      obtain ⟨r, r1, r2, r3, r4, r5⟩ := reorg_ok o.cutR p.leaf p.hi (cutFirst p.leaf (x :: xs)) hc1
        (by
          intro hf y hy
          rw [hf] at hy
          have hy' : y ∈ xs := hy
          refine hin hf y (keyed_drop _ s.items k (fun _ => hk0) y ?_)
          rw [hdrop]; simp [hy'])
        hp.hikey (by
          rw [hc3, hlen]
          rw [hdrop, hleaf, hh, Page.hikeySize_eq] at hR
          omega)
      have hxt : x ∈ s.items.tail := by
        have : s.items.drop k = s.items.tail.drop (k - 1) := by
          rw [List.drop_tail]; congr 1; omega
        have hx : x ∈ s.items.drop k := by rw [hdrop]; simp
        rw [this] at hx
        exact List.mem_of_mem_drop hx
      have hxk := hm x hxt
      have htk : ∀ y ∈ s.items.take k, ItemOk p.leaf y := fun y hy => hl y (List.mem_of_mem_take hy)
      obtain ⟨l, l1, l2, l3, l4, l5⟩ := reorg_ok o.cutL p.leaf (some x.row.tup) (s.items.take k) htk
        (fun hf y hy => hin hf y (keyed_take _ _ _ y hy))
        (fun t ht => by cases ht; exact (hlr x (by simp)).key) (by
          rw [List.length_take, Nat.min_eq_left (by omega)]
          have h1 := sizes_dvd (fun y hy => (htk y hy).dvd)
          have h2 := arr_dvd k
          have h3 := ma_lt x.row.tup.klen
          have h4 := ma_dvd x.row.tup.klen
          have h5 : hiSize (some x.row.tup) = ma x.row.tup.klen := rfl
          rw [h5]
          rw [hleaf] at hL
          unfold hdrSize blck at *
          omega)
      dsimp only
      rw [r1, l1]
      refine ⟨l, r, rfl, l2, r2, l5, r5, ⟨r4, ?_, ?_⟩, ?_, ?_⟩
      · rw [l3]
        intro h
        rcases List.take_eq_nil_iff.1 h with h | h
        · omega
        · rw [h, List.length_nil] at hkn; omega
      · rw [r3]
        cases hpl : p.leaf with
        | true => exact ⟨x, rfl, l4⟩
        | false => exact ⟨{ x with size := itemHdr false }, rfl, l4⟩
      · intro h
        rw [l3, r3, h]
        show s.items.take k ++ (x :: xs) = s.items
        rw [← hdrop, List.take_append_drop]
      · rw [List.map_append, l3, r3, cutFirst_rows, ← List.map_append, ← hdrop,
          List.take_append_drop]

end Verif.PageSplit
