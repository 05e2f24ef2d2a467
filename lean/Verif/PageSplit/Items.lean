import Verif.PageSplit.Split

/-! # Well-formed pages; reorganisation; collection of the items -/

namespace Verif.PageSplit

/-- An item has room for its tuple and is not larger than the largest. -/
structure ItemOk (leaf : Bool) (x : Item) : Prop where
  dvd : x.size % 8 = 0
  lo : itemHdr leaf ≤ x.size
  need : leaf = true → need true x.row.tup ≤ x.size
  hi : x.size ≤ itemHdr leaf + maxTup
  key : x.row.tup.klen ≤ maxTup

theorem ItemOk.pos {leaf : Bool} {x : Item} (h : ItemOk leaf x) : 0 < x.size := by
  have := itemHdr_pos leaf; have := h.lo; omega

theorem ItemOk.le {leaf : Bool} {x : Item} (h : ItemOk leaf x) : x.size ≤ 2704 := by
  have := itemHdr_le leaf; have := h.hi; unfold maxTup at this; omega

/-- The items whose keys are there: in internal pages the first has none. -/
def keyed (leaf : Bool) (l : List Item) : List Item := if leaf then l else l.tail

/-- The keys of an internal page have room. -/
def InnerOk (leaf : Bool) (l : List Item) : Prop :=
  leaf = false → ∀ x ∈ keyed leaf l, itemHdr false + ma x.row.tup.klen ≤ x.size

/-- A well-formed page: it is not overfull, and no key on it is longer than the longest. -/
structure Page.Ok (p : Page) : Prop where
  start : p.start = max (hikeysEnd p.leaf) (hdrSize + p.hikeySize)
  room : p.dataSize ≤ blck
  items : ∀ x ∈ p.items, ItemOk p.leaf x
  inner : InnerOk p.leaf p.items
  hikey : ∀ t, p.hi = some t → t.klen ≤ maxTup
  keys : ∀ x ∈ keyed p.leaf p.items, ma x.row.tup.klen ≤ ma p.maxKey
  hikey_le : p.hikeySize ≤ ma p.maxKey
  maxKey : p.maxKey ≤ maxTup
  chunks : p.chunks ≠ []

/-- The room of a high key. -/
def hiSize (hi : Option Tup) : Nat := match hi with | none => 0 | some t => ma t.klen

theorem Page.hikeySize_eq (p : Page) : p.hikeySize = hiSize p.hi := rfl

theorem hiSize_dvd (hi : Option Tup) : hiSize hi % 8 = 0 := by
  cases hi with
  | none => rfl
  | some t => exact ma_dvd _

theorem hiSize_le {hi : Option Tup} (h : ∀ t, hi = some t → t.klen ≤ maxTup) :
    hiSize hi ≤ maxTup := by
  cases hi with
  | none => exact Nat.zero_le _
  | some t => exact le_of_ma (h t rfl) (by decide)

theorem Page.empty_ok (leaf : Bool) : (Page.empty leaf).Ok := by
  cases leaf <;> constructor <;> simp [Page.empty, Page.items, Page.dataSize, Page.hikeySize,
    hikeysEnd, hdrSize, blck, chunkSize, arr, ma, sizes, keyed, maxTup, InnerOk]

/-! ## Reorganisation -/

theorem foldl_max_le (l : List Nat) (a b : Nat) (ha : a ≤ b) (h : ∀ x ∈ l, x ≤ b) :
    l.foldl max a ≤ b := by
  induction l generalizing a with
  | nil => exact ha
  | cons x l ih =>
    rw [List.foldl_cons]
    refine ih _ ?_ (fun y hy => h y (by simp [hy]))
    have := h x (by simp)
    omega

theorem le_foldl_max (l : List Nat) (a : Nat) : a ≤ l.foldl max a := by
  induction l generalizing a with
  | nil => exact Nat.le_refl _
  | cons x l ih =>
    rw [List.foldl_cons]
    exact Nat.le_trans (Nat.le_max_left _ _) (ih _)

theorem mem_le_foldl_max (l : List Nat) (a : Nat) {x : Nat} (h : x ∈ l) : x ≤ l.foldl max a := by
  induction l generalizing a with
  | nil => simp at h
  | cons y l ih =>
    rw [List.foldl_cons]
    rcases List.mem_cons.1 h with rfl | h
    · exact Nat.le_trans (Nat.le_max_right _ _) (le_foldl_max _ _)
    · exact ih _ h

theorem keyed_sub (leaf : Bool) (l : List Item) : ∀ x ∈ keyed leaf l, x ∈ l := by
  intro x h
  unfold keyed at h
  cases leaf
  · exact List.mem_of_mem_tail h
  · exact h

/-- A reorganisation lays out the items if they fit, and the page is well formed. -/
theorem reorg_ok (cut : Nat → Bool) (leaf : Bool) (hi : Option Tup) (l : List Item)
    (hl : ∀ x ∈ l, ItemOk leaf x) (hin : InnerOk leaf l) (hh : ∀ t, hi = some t → t.klen ≤ maxTup)
    (hfit : max (hikeysEnd leaf) (hdrSize + hiSize hi) + sizes l + arr l.length ≤ blck) :
    ∃ q, reorg cut leaf hi l = some q ∧ q.Ok ∧ q.items = l ∧ q.hi = hi ∧ q.leaf = leaf := by
  have hr : reorg cut leaf hi l =
      if max (hikeysEnd leaf) (hdrSize + hiSize hi) + sizes l + arr l.length > blck
      then none else some ⟨leaf, hi, max (hikeysEnd leaf) (hdrSize + hiSize hi),
        cutLoop cut 0 (blck - max (hikeysEnd leaf) (hdrSize + hiSize hi) - sizes l -
          arr l.length) [] l, maxKeyOf leaf (hiSize hi) l⟩ := by
    cases hi <;> rfl
  rw [hr]
  rw [if_neg (by omega)]
  have hitems : (cutLoop cut 0 (blck - max (hikeysEnd leaf) (hdrSize + hiSize hi) - sizes l -
        arr l.length) [] l).flatten = l := by rw [cutLoop_flatten]; rfl
  refine ⟨_, rfl, ⟨rfl, ?_, ?_, ?_, hh, ?_, ?_, ?_, cutLoop_ne _ _ _ _ _⟩, hitems, rfl, rfl⟩
  · have h1 := cutLoop_size cut 0 (blck - max (hikeysEnd leaf) (hdrSize + hiSize hi) - sizes l -
        arr l.length) [] l
    have h2 : ((cutLoop cut 0 (blck - max (hikeysEnd leaf) (hdrSize + hiSize hi) - sizes l -
        arr l.length) [] l).map chunkSize).sum % 8 = 0 := by
      have h3 : ∀ x ∈ (cutLoop cut 0 (blck - max (hikeysEnd leaf) (hdrSize + hiSize hi) -
          sizes l - arr l.length) [] l).flatten, x.size % 8 = 0 := by
        rw [hitems]; exact fun x hx => (hl x hx).dvd
      generalize cutLoop cut 0 _ [] l = cs at h3
      induction cs with
      | nil => rfl
      | cons c cs ih =>
        simp only [List.map_cons, List.sum_cons, List.flatten_cons, List.mem_append] at h3 ⊢
        have h4 := ih (fun x hx => h3 x (.inr hx))
        have h5 := sizes_dvd (fun x hx => h3 x (.inl hx))
        have h6 := arr_dvd c.length
        have h7 : chunkSize c = arr c.length + sizes c := rfl
        omega
    have h4 := hikeysEnd_dvd leaf
    have h5 := hiSize_dvd hi
    have h6 := waste_eq l.length
    simp only [List.length_nil, sizes_nil] at h1
    unfold Page.dataSize
    dsimp only
    unfold hdrSize blck at *
    omega
  · intro x hx
    unfold Page.items at hx
    rw [hitems] at hx
    exact hl x hx
  · unfold Page.items
    dsimp only
    rw [hitems]
    exact hin
  · intro x hx
    unfold Page.items at hx
    dsimp only at hx ⊢
    rw [hitems] at hx
    have : ma x.row.tup.klen ≤ maxKeyOf leaf (hiSize hi) l := by
      unfold maxKeyOf
      apply mem_le_foldl_max
      unfold keyed at hx
      exact List.mem_map.2 ⟨x, hx, rfl⟩
    exact Nat.le_trans this (ma_le _)
  · refine Nat.le_trans ?_ (ma_le _)
    exact le_foldl_max _ _
  · apply foldl_max_le
    · exact hiSize_le hh
    · intro y hy
      obtain ⟨x, hx, rfl⟩ := List.mem_map.1 hy
      have hx' : x ∈ keyed leaf l := hx
      exact le_of_ma (hl x (keyed_sub _ _ x hx')).key (by decide)

/-! ## What is kept -/

/-- An item is carried over: as it is, or cut to the room it needs if its header is finished. -/
def Carried (e : Env) (x y : Item) : Prop :=
  y = x ∨ (e.fin x.row.xid = true ∧ y = { x with size := need true x.row.tup })

/-- The items carried over; deleted rows may be dropped. -/
inductive Kept (e : Env) (csn : Option Nat) : List Item → List Item → Prop where
  | nil : Kept e csn [] []
  | keep {x y : Item} {xs ys : List Item} :
      Carried e x y → Kept e csn xs ys → Kept e csn (x :: xs) (y :: ys)
  | drop {x : Item} {xs ys : List Item} :
      x.row.droppable e csn = true → Kept e csn xs ys → Kept e csn (x :: xs) ys

theorem Kept.refl (e : Env) (csn : Option Nat) (l : List Item) : Kept e csn l l := by
  induction l with
  | nil => exact .nil
  | cons x l ih => exact .keep (.inl rfl) ih

theorem carried_slim (e : Env) (x : Item) : Carried e x (x.slim e) := by
  unfold Item.slim
  split
  · exact .inr ⟨by assumption, rfl⟩
  · exact .inl rfl

theorem keep_cons (e : Env) (csn : Option Nat) (x : Item) (l : List Item) :
    keep true e csn (x :: l) =
      if x.row.droppable e csn then keep true e csn l else x.slim e :: keep true e csn l := by
  unfold keep
  simp only [if_true, List.filter_cons]
  cases x.row.droppable e csn <;> simp

theorem keep_kept (e : Env) (csn : Option Nat) (l : List Item) :
    Kept e csn l (keep true e csn l) := by
  induction l with
  | nil => exact .nil
  | cons x l ih =>
    rw [keep_cons]
    split
    · exact .drop (by assumption) ih
    · exact .keep (carried_slim _ _) ih

theorem Carried.ok {e : Env} {x y : Item} (h : Carried e x y) (hx : ItemOk true x) :
    ItemOk true y := by
  rcases h with rfl | ⟨_, rfl⟩
  · exact hx
  · exact ⟨need_dvd _ _, Nat.le_add_right _ _, fun _ => Nat.le_refl _,
      Nat.le_trans (hx.need rfl) hx.hi, hx.key⟩

theorem Carried.row {e : Env} {x y : Item} (h : Carried e x y) : y.row = x.row := by
  rcases h with rfl | ⟨_, rfl⟩ <;> rfl

theorem Carried.size_le {e : Env} {x y : Item} (h : Carried e x y) (hx : ItemOk true x) :
    y.size ≤ x.size := by
  rcases h with rfl | ⟨_, rfl⟩
  · exact Nat.le_refl _
  · exact hx.need rfl

theorem Kept.mem {e : Env} {csn : Option Nat} {l l' : List Item} (h : Kept e csn l l') :
    ∀ y ∈ l', ∃ x ∈ l, Carried e x y := by
  induction h with
  | nil => simp
  | keep hc _ ih =>
    intro z hz
    rcases List.mem_cons.1 hz with rfl | hz
    · exact ⟨_, by simp, hc⟩
    · obtain ⟨x, hx, h⟩ := ih z hz
      exact ⟨x, by simp [hx], h⟩
  | drop _ _ ih =>
    intro z hz
    obtain ⟨x, hx, h⟩ := ih z hz
    exact ⟨x, by simp [hx], h⟩

theorem Kept.le {e : Env} {csn : Option Nat} {l l' : List Item} (h : Kept e csn l l')
    (hl : ∀ x ∈ l, ItemOk true x) : sizes l' ≤ sizes l ∧ l'.length ≤ l.length := by
  induction h with
  | nil => exact ⟨Nat.le_refl _, Nat.le_refl _⟩
  | keep hc _ ih =>
    have h1 := hc.size_le (hl _ (by simp))
    have h2 := ih (fun z hz => hl z (by simp [hz]))
    simp only [sizes_cons, List.length_cons]
    omega
  | drop _ _ ih =>
    have h2 := ih (fun z hz => hl z (by simp [hz]))
    simp only [sizes_cons, List.length_cons]
    omega

theorem Kept.append {e : Env} {csn : Option Nat} {a b a' b' : List Item} (h : Kept e csn a a')
    (h' : Kept e csn b b') : Kept e csn (a ++ b) (a' ++ b') := by
  induction h with
  | nil => exact h'
  | keep hc _ ih => exact .keep hc ih
  | drop hd _ ih => exact .drop hd ih

/-! ## Collection of the items -/

theorem makeLoop_ne (leaf replace : Bool) (e : Env) (csn : Option Nat) (new : Item) (i off : Nat)
    (x : Item) (l : List Item) (h : i ≠ off) :
    makeLoop leaf replace e csn new i off (x :: l) =
      if leaf = true ∧ x.row.droppable e csn = true then
        makeLoop leaf replace e csn new i (if i < off then off - 1 else off) l
      else (if leaf then x.slim e else x) :: makeLoop leaf replace e csn new (i + 1) off l := by
  have h1 : ¬ (i = off ∧ replace = true) := fun h' => h h'.1
  rw [makeLoop]
  simp only [if_neg h1, if_neg h, List.nil_append]

theorem makeLoop_at (leaf : Bool) (e : Env) (csn : Option Nat) (new : Item) (i : Nat)
    (x : Item) (l : List Item) :
    makeLoop leaf false e csn new i i (x :: l) =
      new :: if leaf = true ∧ x.row.droppable e csn = true then
        makeLoop leaf false e csn new (i + 1) i l
      else (if leaf then x.slim e else x) :: makeLoop leaf false e csn new (i + 2) i l := by
  rw [makeLoop]
  simp only [Bool.false_eq_true, and_false, if_false, if_true]
  have h1 : ¬ i + 1 < i := by omega
  rw [if_neg h1]
  split <;> rfl

theorem makeLoop_rep (leaf : Bool) (e : Env) (csn : Option Nat) (new : Item) (i : Nat)
    (x : Item) (l : List Item) :
    makeLoop leaf true e csn new i i (x :: l) =
      new :: makeLoop leaf true e csn new (i + 1) i l := by
  rw [makeLoop]
  simp only [and_self, if_true]

theorem keep_int (e : Env) (csn : Option Nat) (l : List Item) : keep false e csn l = l := rfl

theorem makeLoop_after (leaf replace : Bool) (e : Env) (csn : Option Nat) (new : Item)
    (l : List Item) : ∀ (i off : Nat), off < i →
    makeLoop leaf replace e csn new i off l = keep leaf e csn l := by
  induction l with
  | nil =>
    intro i off h
    unfold makeLoop
    rw [if_neg (by omega)]
    cases leaf <;> rfl
  | cons x l ih =>
    intro i off h
    have hlt : ¬ i < off := by omega
    rw [makeLoop_ne _ _ _ _ _ _ _ _ _ (by omega), if_neg hlt, ih _ _ h, ih _ _ (by omega)]
    cases leaf with
    | false => simp [keep_int]
    | true => rw [keep_cons]; simp

/-- The items of a split or a compaction: those kept, with the new one in its place. -/
theorem makeLoop_eq (leaf replace : Bool) (e : Env) (csn : Option Nat) (new : Item)
    (l : List Item) : ∀ (i d : Nat), d ≤ l.length → (replace = true → d < l.length) →
    makeLoop leaf replace e csn new i (i + d) l =
      keep leaf e csn (l.take d) ++ new ::
        keep leaf e csn (l.drop (if replace then d + 1 else d)) := by
  induction l with
  | nil =>
    intro i d hd hr
    have hd0 : d = 0 := by simpa using hd
    subst hd0
    have : replace = false := by
      cases replace with
      | false => rfl
      | true => simp at hr
    subst this
    unfold makeLoop
    rw [if_pos (by omega)]
    cases leaf <;> rfl
  | cons x l ih =>
    intro i d hd hr
    cases d with
    | zero =>
      cases replace with
      | true =>
        rw [Nat.add_zero, makeLoop_rep, makeLoop_after _ _ _ _ _ _ _ _ (by omega)]
        cases leaf <;> rfl
      | false =>
        rw [Nat.add_zero, makeLoop_at, makeLoop_after _ _ _ _ _ _ (i + 1) _ (by omega),
          makeLoop_after _ _ _ _ _ _ (i + 2) _ (by omega)]
        cases leaf with
        | false => simp [keep_int]
        | true =>
          simp only [List.take_zero, Bool.false_eq_true, if_false, List.drop_zero, true_and,
            if_true]
          rw [keep_cons]
          rfl
    | succ d =>
      have hdl : d ≤ l.length := by simpa using hd
      have hrl : replace = true → d < l.length := fun h => by simpa using hr h
      have hdrop : (x :: l).drop (if replace then d + 1 + 1 else d + 1) =
          l.drop (if replace then d + 1 else d) := by cases replace <;> rfl
      have h1 := ih (i + 1) d hdl hrl
      have h2 := ih i d hdl hrl
      have hlt : i < i + (d + 1) := by omega
      rw [show i + 1 + d = i + (d + 1) by omega] at h1
      rw [makeLoop_ne _ _ _ _ _ _ _ _ _ (by omega), if_pos hlt,
        show i + (d + 1) - 1 = i + d by omega, h1, h2, hdrop, List.take_succ_cons]
      cases leaf with
      | false => simp [keep_int]
      | true =>
        rw [keep_cons]
        simp only [true_and, if_true]
        split <;> rfl

/-! ## The estimate of what a compaction vacates -/

/-- Later more transactions are finished. -/
def Env.le (e e2 : Env) : Prop := ∀ x c, e x = some c → e2 x = some c

theorem Env.le.fin {e e2 : Env} (h : e.le e2) {x : Nat} (hf : e.fin x = true) :
    e2.fin x = true := by
  unfold Env.fin at *
  cases hx : e x with
  | none => rw [hx] at hf; simp at hf; simp [hf]
  | some c => rw [h x c hx]; simp

theorem Env.le.csn {e e2 : Env} (h : e.le e2) {x : Nat} (hf : e.fin x = true) :
    e2.csn x = e.csn x := by
  unfold Env.csn
  split
  · rfl
  · rename_i h0
    cases hx : e x with
    | none => unfold Env.fin at hf; rw [hx] at hf; simp [h0] at hf
    | some c => rw [h x c hx]

/-- The csn of the collection is not before that of the estimate. -/
def csnLe (c : Nat) (csn : Option Nat) : Prop := ∀ d, csn = some d → c ≤ d

theorem droppable_mono {e e2 : Env} (h : e.le e2) {c : Nat} {csn : Option Nat}
    (hc : csnLe c csn) {r : Row} (hd : r.droppable e (some c) = true) :
    r.droppable e2 csn = true := by
  unfold Row.droppable at *
  simp only [Bool.and_eq_true, Option.all_some, decide_eq_true_eq] at hd ⊢
  refine ⟨⟨hd.1.1, h.fin hd.1.2⟩, ?_⟩
  cases csn with
  | none => rfl
  | some d =>
    have := hc d rfl
    rw [Option.all_some, decide_eq_true_eq, h.csn hd.1.2]
    omega

theorem droppable_mono' {e e2 : Env} (h : e.le e2) {csn : Option Nat} {r : Row}
    (hd : r.droppable e csn = true) : r.droppable e2 csn = true := by
  unfold Row.droppable at *
  simp only [Bool.and_eq_true] at hd ⊢
  refine ⟨⟨hd.1.1, h.fin hd.1.2⟩, ?_⟩
  rw [h.csn hd.1.2]; exact hd.2

/-- Room vacated by an item. -/
def vac1 (e : Env) (csn : Option Nat) (x : Item) : Nat :=
  if x.row.droppable e csn then x.size
  else if e.fin x.row.xid && !x.row.deleted then x.size - need true x.row.tup
  else 0

/-- An item takes, when kept, no more than estimated. -/
theorem keep_vac1 {e e2 : Env} (h : e.le e2) {c csn : Option Nat}
    (hc : ∀ r : Row, r.droppable e c = true → r.droppable e2 csn = true) (x : Item)
    (hx : ItemOk true x) : sizes (keep true e2 csn [x]) + vac1 e c x ≤ x.size := by
  have hn := hx.need rfl
  rw [keep_cons]
  unfold vac1
  by_cases hd : x.row.droppable e c = true
  · rw [if_pos (hc _ hd), if_pos hd]
    exact Nat.le_of_eq (Nat.zero_add _)
  · rw [if_neg hd]
    by_cases hd2 : x.row.droppable e2 csn = true
    · rw [if_pos hd2]
      have : sizes (keep true e2 csn []) = 0 := rfl
      split <;> omega
    · rw [if_neg hd2]
      have h0 : sizes (x.slim e2 :: keep true e2 csn []) = (x.slim e2).size := Nat.add_zero _
      rw [h0]
      by_cases hf : (e.fin x.row.xid && !x.row.deleted) = true
      · rw [if_pos hf]
        rw [Bool.and_eq_true] at hf
        unfold Item.slim
        rw [if_pos (h.fin hf.1)]
        dsimp only
        omega
      · rw [if_neg hf]
        unfold Item.slim
        split
        · dsimp only; omega
        · omega

theorem keep_append (e : Env) (csn : Option Nat) (a b : List Item) :
    keep true e csn (a ++ b) = keep true e csn a ++ keep true e csn b := by
  simp [keep]

theorem vacated_cons (e : Env) (csn : Option Nat) (skip : Option Nat) (i : Nat) (x : Item)
    (xs : List Item) : vacated e csn skip i (x :: xs) =
      (if skip = some i then 0 else vac1 e csn x) + vacated e csn skip (i + 1) xs := rfl

theorem vacated_none {e e2 : Env} (h : e.le e2) {c csn : Option Nat}
    (hc : ∀ r : Row, r.droppable e c = true → r.droppable e2 csn = true) (skip : Option Nat)
    (l : List Item) (hl : ∀ x ∈ l, ItemOk true x) :
    ∀ i, (∀ j, skip = some j → j < i) →
      sizes (keep true e2 csn l) + vacated e c skip i l ≤ sizes l := by
  induction l with
  | nil => intro i _; exact Nat.le_refl _
  | cons x l ih =>
    intro i hi
    have h1 := keep_vac1 h hc x (hl x (by simp))
    have h2 := ih (fun y hy => hl y (by simp [hy])) (i + 1)
      (fun j hj => Nat.lt_succ_of_lt (hi j hj))
    rw [vacated_cons, if_neg (fun hs => by have := hi i hs; omega),
      show x :: l = [x] ++ l from rfl, keep_append, sizes_append, sizes_append]
    have : sizes [x] = x.size := Nat.add_zero _
    omega

theorem vacated_skip {e e2 : Env} (h : e.le e2) {c csn : Option Nat}
    (hc : ∀ r : Row, r.droppable e c = true → r.droppable e2 csn = true)
    (l : List Item) (hl : ∀ x ∈ l, ItemOk true x) :
    ∀ i d (hd : d < l.length),
      sizes (keep true e2 csn (l.take d)) + sizes (keep true e2 csn (l.drop (d + 1))) +
        vacated e c (some (i + d)) i l + (l[d]).size ≤ sizes l := by
  induction l with
  | nil => intro i d hd; simp at hd
  | cons x l ih =>
    intro i d hd
    have hl' : ∀ y ∈ l, ItemOk true y := fun y hy => hl y (by simp [hy])
    rw [vacated_cons]
    cases d with
    | zero =>
      have h2 := vacated_none h hc (some (i + 0)) l hl' (i + 1)
        (fun j hj => by simp at hj; omega)
      have h0 : sizes (keep true e2 csn ((x :: l).take 0)) = 0 := rfl
      rw [if_pos (by simp), h0]
      simp only [List.drop_succ_cons, List.drop_zero, List.getElem_cons_zero, sizes_cons]
      omega
    | succ d =>
      have h1 := keep_vac1 h hc x (hl x (by simp))
      have h2 := ih hl' (i + 1) d (by simpa using hd)
      rw [show i + 1 + d = i + (d + 1) by omega] at h2
      rw [if_neg (by simp), List.take_succ_cons,
        show x :: l.take d = [x] ++ l.take d from rfl, keep_append, sizes_append, sizes_cons]
      simp only [List.drop_succ_cons, List.getElem_cons_succ]
      omega

end Verif.PageSplit
