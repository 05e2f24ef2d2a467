/-
Statements keep the invariant, and the table reads as the specification says.
-/
import Verif.Toast.Inv

namespace Verif.Toast

variable {E : Nat → Cell → Option Bytes → Prop}

/-- A row has the values `vs`; `E` is a further fact about each of its columns. -/
structure RowOk (cfg : Cfg) (E : Nat → Cell → Option Bytes → Prop) (t : Tree) (r : Row) (vs : List (Option Bytes)) : Prop where
  len : r.cells.length = cfg.modes.length
  lenv : vs.length = cfg.modes.length
  cells : ∀ (i : Nat) c v, r.cells[i]? = some c → vs[i]? = some v → Stored cfg t r.key i c v
  beyond : ∀ a, cfg.modes.length ≤ a → sel (cfg.cls r.key) a t = []
  extra : ∀ (i : Nat) c v, r.cells[i]? = some c → vs[i]? = some v → E i c v

theorem RowOk.congr {cfg : Cfg} {t t' : Tree} {r : Row} {vs : List (Option Bytes)}
    (h : RowOk cfg E t r vs) (ht : ∀ a, sel (cfg.cls r.key) a t' = sel (cfg.cls r.key) a t) :
    RowOk cfg E t' r vs :=
  ⟨h.len, h.lenv, fun i c v h1 h2 => (h.cells i c v h1 h2).congr (ht i),
    fun a ha => by rw [ht a]; exact h.beyond a ha, h.extra⟩

/-- The rows of the table are those of the specification, in the same order. -/
def RowsOk (cfg : Cfg) (E : Nat → Cell → Option Bytes → Prop) (t : Tree) : List Row → Spec.Tbl → Prop
  | [], [] => True
  | r :: rs, x :: l => r.key = x.1 ∧ RowOk cfg E t r x.2 ∧ RowsOk cfg E t rs l
  | _, _ => False

theorem RowsOk.congr {cfg : Cfg} {t t' : Tree} : ∀ {rs : List Row} {l : Spec.Tbl},
    RowsOk cfg E t rs l →
    (∀ r ∈ rs, ∀ a, sel (cfg.cls r.key) a t' = sel (cfg.cls r.key) a t) → RowsOk cfg E t' rs l := by
  intro rs
  induction rs with
  | nil => intro l h _; cases l with
    | nil => trivial
    | cons x l => exact h
  | cons r rs ih =>
    intro l h ht
    cases l with
    | nil => exact h
    | cons x l =>
      exact ⟨h.1, h.2.1.congr (ht r (List.mem_cons_self ..)),
        ih h.2.2 fun r' hr' => ht r' (List.mem_cons_of_mem _ hr')⟩

theorem RowsOk.filter {cfg : Cfg} {t : Tree} (p : Nat → Bool) : ∀ {rs : List Row} {l : Spec.Tbl},
    RowsOk cfg E t rs l → RowsOk cfg E t (rs.filter fun r => p r.key) (l.filter fun x => p x.1) := by
  intro rs
  induction rs with
  | nil => intro l h; cases l with
    | nil => trivial
    | cons x l => exact False.elim h
  | cons r rs ih =>
    intro l h
    cases l with
    | nil => exact False.elim h
    | cons x l =>
      obtain ⟨h1, h2, h3⟩ := h
      rw [List.filter_cons, List.filter_cons, ← h1]
      by_cases hp : p r.key = true
      · rw [if_pos hp, if_pos hp]
        exact ⟨h1, h2, ih h3⟩
      · rw [if_neg hp, if_neg hp]
        exact ih h3

theorem RowsOk.find {cfg : Cfg} {t : Tree} (k : Nat) : ∀ {rs : List Row} {l : Spec.Tbl},
    RowsOk cfg E t rs l →
    (findRow cfg k rs = none ∧ Spec.lookup cfg.cls k l = none) ∨
      ∃ r x, findRow cfg k rs = some r ∧ Spec.lookup cfg.cls k l = some x ∧ r.key = x.1 ∧
        RowOk cfg E t r x.2 := by
  intro rs
  induction rs with
  | nil => intro l h; cases l with
    | nil => exact Or.inl ⟨rfl, rfl⟩
    | cons x l => exact False.elim h
  | cons r rs ih =>
    intro l h
    cases l with
    | nil => exact False.elim h
    | cons x l =>
      obtain ⟨h1, h2, h3⟩ := h
      unfold findRow Spec.lookup
      rw [List.find?_cons, List.find?_cons, ← h1]
      cases hp : (cfg.cls r.key == cfg.cls k) with
      | true => exact Or.inr ⟨r, x, rfl, rfl, h1, h2⟩
      | false => exact ih h3

/-- The invariant. -/
structure Inv (cfg : Cfg) (E : Nat → Cell → Option Bytes → Prop) (db : Db) (tbl : Spec.Tbl) : Prop where
  sorted : Sorted db.tree
  keys : db.rows.Pairwise fun a b => cfg.cls a.key ≠ cfg.cls b.key
  rows : RowsOk cfg E db.tree db.rows tbl
  none : ∀ c, (∀ r ∈ db.rows, cfg.cls r.key ≠ c) → ∀ a, sel c a db.tree = []

/-! ### Reading -/

theorem readCell_ok {cfg : Cfg} (hg : Good cfg) {t : Tree} {key i : Nat} {c : Cell}
    {v : Option Bytes} (h : Stored cfg t key i c v) : readCell cfg t key i c = some v := by
  cases c with
  | null => rw [h.1]; rfl
  | inline f => rw [h.1]; rfl
  | pointer => exact False.elim h
  | toasted r s =>
    obtain ⟨f, h1, h2, h3, h4⟩ := h
    simp only [readCell]
    rw [h3, detoast_ok (hg.chunk key) h4, h1]
    rfl

theorem readCells_ok {cfg : Cfg} (hg : Good cfg) {t : Tree} {key : Nat} :
    ∀ (cs : List Cell) (vs : List (Option Bytes)) (i : Nat), vs.length = cs.length →
      (∀ (k : Nat) c v, cs[k]? = some c → vs[k]? = some v → Stored cfg t key (i + k) c v) →
      readCells cfg t key i cs = some vs := by
  intro cs
  induction cs with
  | nil =>
    intro vs i hl _
    have : vs = [] := List.length_eq_zero_iff.mp (by simpa using hl)
    subst this; rfl
  | cons c cs ih =>
    intro vs i hl h
    cases vs with
    | nil => simp at hl
    | cons v vs =>
      unfold readCells
      rw [readCell_ok hg (by simpa using h 0 c v (by simp) (by simp)),
        ih vs (i + 1) (by simpa using hl) (by
          intro k c' v' h1 h2
          have := h (k + 1) c' v' (by simpa using h1) (by simpa using h2)
          rwa [show i + (k + 1) = i + 1 + k by omega] at this)]

theorem readRows_ok {cfg : Cfg} (hg : Good cfg) {t : Tree} : ∀ {rs : List Row} {l : Spec.Tbl},
    RowsOk cfg E t rs l → readRows cfg t rs = some l := by
  intro rs
  induction rs with
  | nil => intro l h; cases l with
    | nil => rfl
    | cons x l => exact False.elim h
  | cons r rs ih =>
    intro l h
    cases l with
    | nil => exact False.elim h
    | cons x l =>
      obtain ⟨h1, h2, h3⟩ := h
      unfold readRows
      rw [readCells_ok hg r.cells x.2 0 (by rw [h2.len, h2.lenv])
        (by intro k c v hc hv; rw [Nat.zero_add]; exact h2.cells k c v hc hv), ih h3]
      simp only [h1]

/-! ### The slot of a statement -/

theorem slotDatum_ok {cfg : Cfg} (hg : Good cfg) {t : Tree} {key i : Nat} {c : Cell}
    {v : Option Bytes} (h : Stored cfg t key i c v) :
    ∃ d, slotDatum key i c = some d ∧ Means cfg t d v := by
  cases c with
  | null => exact ⟨_, rfl, Or.inl ⟨rfl, h.1⟩⟩
  | inline f => exact ⟨_, rfl, Or.inr ⟨f, rfl, rfl, rfl, h.1⟩⟩
  | pointer => exact False.elim h
  | toasted r s =>
    obtain ⟨f, h1, h2, h3, h4⟩ := h
    exact ⟨_, rfl, Or.inr ⟨f, by simp only [srcValue, h3]; exact detoast_ok (hg.chunk key) h4,
      h2, h3, h1⟩⟩

theorem srcDatum_ok {cfg : Cfg} (hg : Good cfg) {db : Db} {tbl : Spec.Tbl}
    (h : RowsOk cfg E db.tree db.rows tbl) (s : Src) :
    ∃ d, srcDatum cfg db.rows s = some d ∧
      Means cfg db.tree d (Spec.value cfg.cls cfg.unpack tbl s) := by
  cases s with
  | null => exact ⟨_, rfl, Or.inl ⟨rfl, rfl⟩⟩
  | value f => exact ⟨_, rfl, Or.inr ⟨f, rfl, rfl, rfl, rfl⟩⟩
  | heap f => exact ⟨_, rfl, Or.inr ⟨f, rfl, rfl, rfl, rfl⟩⟩
  | copy k a =>
    simp only [srcDatum, Spec.value]
    rcases h.find k with ⟨h1, h2⟩ | ⟨r, x, h1, h2, h3, h4⟩
    · rw [h1, h2]; exact ⟨_, rfl, Or.inl ⟨rfl, rfl⟩⟩
    · rw [h1, h2]
      simp only
      cases hc : r.cells[a]? with
      | none =>
        have : x.2.getD a none = none := by
          have hl : x.2.length ≤ a := by
            rw [h4.lenv, ← h4.len]; exact List.getElem?_eq_none_iff.mp hc
          rw [List.getD_eq_getElem?_getD, List.getElem?_eq_none hl]; rfl
        rw [this]
        exact ⟨_, rfl, Or.inl ⟨rfl, rfl⟩⟩
      | some c =>
        have hlt : a < x.2.length := by
          rw [h4.lenv, ← h4.len]; exact (List.getElem?_eq_some_iff.mp hc).1
        have hv : x.2[a]? = some x.2[a] := List.getElem?_eq_getElem hlt
        rw [List.getD_eq_getElem?_getD, hv]
        exact slotDatum_ok hg (h4.cells a c _ hc hv)

theorem mapM_ok {α β : Type} {f : α → Option β} {P : α → β → Prop} :
    ∀ (l : List α), (∀ a ∈ l, ∃ b, f a = some b ∧ P a b) →
      ∃ bs, l.mapM f = some bs ∧ bs.length = l.length ∧
        ∀ (i : Nat) a b, l[i]? = some a → bs[i]? = some b → P a b := by
  intro l
  induction l with
  | nil => intro _; exact ⟨[], rfl, rfl, by simp⟩
  | cons a l ih =>
    intro h
    obtain ⟨b, hb, hp⟩ := h a (List.mem_cons_self ..)
    obtain ⟨bs, hbs, hlen, hall⟩ := ih fun x hx => h x (List.mem_cons_of_mem _ hx)
    refine ⟨b :: bs, ?_, by simp [hlen], ?_⟩
    · rw [List.mapM_cons, hb, hbs]; rfl
    · intro i x y hx hy
      cases i with
      | zero =>
        simp at hx hy
        subst hx; subst hy; exact hp
      | succ i => exact hall i x y (by simpa using hx) (by simpa using hy)

/-- The slot of a statement has the values the specification gives. -/
theorem slotOf_ok {cfg : Cfg} (hg : Good cfg) {db : Db} {tbl : Spec.Tbl}
    (h : RowsOk cfg E db.tree db.rows tbl) {srcs : List Src}
    (hl : srcs.length = cfg.modes.length) :
    ∃ cs, slotOf cfg db.rows srcs = some cs ∧ cs.length = cfg.modes.length ∧
      ∀ (k : Nat) c w, cs[k]? = some c →
        (srcs.map (Spec.value cfg.cls cfg.unpack tbl))[k]? = some w →
        c.flag = .off ∧ Means cfg db.tree c.d w := by
  obtain ⟨ds, hds, hlen, hall⟩ := mapM_ok (f := srcDatum cfg db.rows)
    (P := fun s d => Means cfg db.tree d (Spec.value cfg.cls cfg.unpack tbl s)) srcs
    fun s _ => srcDatum_ok hg h s
  refine ⟨_, by unfold slotOf; rw [hds]; rfl, ?_, ?_⟩
  · rw [List.length_zipWith]; omega
  · intro k c w hc hw
    rw [List.getElem?_zipWith] at hc
    rw [List.getElem?_map] at hw
    obtain ⟨s, hs, rfl⟩ := Option.map_eq_some_iff.mp hw
    cases hm : cfg.modes[k]? with
    | none => rw [hm] at hc; simp at hc
    | some m =>
      cases hd : ds[k]? with
      | none => rw [hm, hd] at hc; simp at hc
      | some d =>
        rw [hm, hd] at hc
        simp at hc
        rw [← hc]
        exact ⟨rfl, hall k s d hs hd⟩

/-! ### Rows -/

theorem mem_findRow {cfg : Cfg} {k : Nat} {rows : List Row} {r : Row}
    (h : findRow cfg k rows = some r) : r ∈ rows ∧ cfg.cls r.key = cfg.cls k := by
  unfold findRow at h
  exact ⟨List.mem_of_find?_eq_some h, by simpa using List.find?_some h⟩

theorem findRow_none {cfg : Cfg} {k : Nat} {rows : List Row}
    (h : findRow cfg k rows = none) : ∀ r ∈ rows, cfg.cls r.key ≠ cfg.cls k := by
  unfold findRow at h
  intro r hr
  have := List.find?_eq_none.mp h r hr
  simpa using this

theorem no_pointer {cfg : Cfg} {t : Tree} {r : Row} {vs : List (Option Bytes)}
    (h : RowOk cfg E t r vs) : r.cells.any (· == .pointer) = false := by
  rw [Bool.eq_false_iff]
  intro hany
  obtain ⟨c, hc, hp⟩ := List.any_eq_true.mp hany
  have hp' : c = .pointer := by simpa using hp
  subst hp'
  obtain ⟨i, hi⟩ := List.getElem?_of_mem hc
  have hlt : i < vs.length := by
    rw [h.lenv, ← h.len]; exact (List.getElem?_eq_some_iff.mp hi).1
  exact h.cells i _ _ hi (List.getElem?_eq_getElem hlt)

theorem without_keys {cfg : Cfg} {k : Nat} {rows : List Row} :
    ∀ r ∈ without cfg k rows, r ∈ rows ∧ cfg.cls r.key ≠ cfg.cls k := by
  intro r hr
  unfold without at hr
  have := List.mem_filter.mp hr
  exact ⟨this.1, by simpa using this.2⟩

theorem mem_without {cfg : Cfg} {k : Nat} {rows : List Row} {r : Row} (h : r ∈ rows)
    (hk : cfg.cls r.key ≠ cfg.cls k) : r ∈ without cfg k rows := by
  unfold without
  exact List.mem_filter.mpr ⟨h, by simpa using hk⟩

theorem RowsOk.without {cfg : Cfg} {t : Tree} {rs : List Row} {l : Spec.Tbl} (k : Nat)
    (h : RowsOk cfg E t rs l) :
    RowsOk cfg E t (Toast.without cfg k rs) (l.filter fun x => !(cfg.cls x.1 == cfg.cls k)) :=
  h.filter fun x => !(cfg.cls x == cfg.cls k)

/-- The new row. -/
theorem newRow {cfg : Cfg} {t : Tree} {key : Nat} {cs : List Col} {ws : List (Option Bytes)}
    (hl : cs.length = cfg.modes.length) (hlw : ws.length = cfg.modes.length)
    (hst : ∀ (k : Nat) c w, cs[k]? = some c → ws[k]? = some w →
      Stored cfg t key (0 + k) (cellOf cfg c) w)
    (hb : ∀ a, cfg.modes.length ≤ a → sel (cfg.cls key) a t = [])
    (hE : ∀ (k : Nat) c w, cs[k]? = some c → ws[k]? = some w → E k (cellOf cfg c) w) :
    RowOk cfg E t ⟨key, cs.map (cellOf cfg)⟩ ws := by
  refine ⟨by rw [List.length_map, hl], hlw, ?_, hb, ?_⟩
  · intro i c w hc hw
    rw [List.getElem?_map] at hc
    obtain ⟨x, hx, rfl⟩ := Option.map_eq_some_iff.mp hc
    have := hst i x w hx hw
    rwa [Nat.zero_add] at this
  · intro i c w hc hw
    rw [List.getElem?_map] at hc
    obtain ⟨x, hx, rfl⟩ := Option.map_eq_some_iff.mp hc
    exact hE i x w hx hw

/-! ### Statements -/

/-- The columns a statement stores have the further fact `E`. -/
def Gives (cfg : Cfg) (E : Nat → Cell → Option Bytes → Prop) (db : Db) (tbl : Spec.Tbl)
    (srcs : List Src) : Prop :=
  ∀ cs, slotOf cfg db.rows srcs = some cs → cs.length = cfg.modes.length →
    ∀ (k : Nat) c w, (toastCols cfg cs)[k]? = some c →
      (srcs.map (Spec.value cfg.cls cfg.unpack tbl))[k]? = some w → E k (cellOf cfg c) w

/-- What a statement gives for the columns. -/
def Op.srcs : Op → List Src
  | .insert _ srcs => srcs
  | .update _ _ srcs => srcs
  | .delete _ => []

theorem insert_ok {cfg : Cfg} (hg : Good cfg) {db : Db} {tbl : Spec.Tbl} (hi : Inv cfg E db tbl)
    (k : Nat) (srcs : List Src) (hE : Gives cfg E db tbl srcs) :
    ∃ db', step cfg db (.insert k srcs) = some db' ∧
      Inv cfg E db' (Spec.apply cfg.modes.length cfg.cls cfg.unpack tbl (.insert k srcs)) := by
  simp only [step, doOp, Spec.apply]
  by_cases hl : srcs.length = cfg.modes.length
  · simp only [hl, ne_eq, not_true, if_false, false_or]
    obtain ⟨cs, hcs, hlen, hcols⟩ := slotOf_ok hg hi.rows hl
    obtain ⟨hfit, hlen', hok⟩ := toastCols_ok hg hlen (by rw [List.length_map, hl, hlen]) hcols
    rw [hcs]
    simp only [doInsert, hfit, Bool.not_true]
    rcases hi.rows.find k with ⟨h1, h2⟩ | ⟨r, x, h1, h2, h3, h4⟩
    · rw [h1, h2]
      simp only [Option.isSome_none]
      have hno := findRow_none h1
      have hemp := hi.none (cfg.cls k) hno
      obtain ⟨t, ht, hs, hst, hoth⟩ := insertValues_ok hg (snap := db.tree) (key := k)
        (toastCols cfg cs) _ 0 db.tree hi.sorted (by rw [List.length_map, hl, hlen']) hok
        (fun a _ => hemp a)
      simp only [ht]
      refine ⟨_, rfl, ?_⟩
      simp only [Bool.false_eq_true, if_false]
      refine ⟨hs, ?_, ⟨rfl, ?_, ?_⟩, ?_⟩
      · exact List.pairwise_cons.mpr ⟨fun r hr => (hno r hr).symm, hi.keys⟩
      · refine newRow hlen' (by rw [List.length_map, hl]) hst (fun a ha => ?_) ?_
        · rw [hoth _ _ (by omega)]
          exact hemp a
        · exact hE cs hcs hlen
      · exact hi.rows.congr fun r hr a => hoth _ _ (by
          intro h; exact hno r hr h.1.symm)
      · intro c hc a
        have hck : cfg.cls k ≠ c := hc _ (List.mem_cons_self ..)
        rw [hoth _ _ (by intro h; exact hck h.1)]
        exact hi.none c (fun r hr => hc r (List.mem_cons_of_mem _ hr)) a
    · rw [h1, h2]
      exact ⟨db, rfl, by simpa using hi⟩
  · simp only [ne_eq, hl, not_false_eq_true, if_true, true_or]
    exact ⟨db, rfl, hi⟩

theorem delete_ok {cfg : Cfg} {db : Db} {tbl : Spec.Tbl} (hi : Inv cfg E db tbl)
    (k : Nat) : ∃ db', step cfg db (.delete k) = some db' ∧
      Inv cfg E db' (Spec.apply cfg.modes.length cfg.cls cfg.unpack tbl (.delete k)) := by
  simp only [step, doOp, Spec.apply]
  have hrest := hi.rows.without k
  rcases hi.rows.find k with ⟨h1, h2⟩ | ⟨old, x, h1, h2, h3, h4⟩
  · rw [h1]
    refine ⟨db, rfl, ?_⟩
    have : without cfg k db.rows = db.rows := by
      unfold without
      apply List.filter_eq_self.mpr
      intro r hr
      simpa using findRow_none h1 r hr
    rw [this] at hrest
    exact ⟨hi.sorted, hi.keys, hrest, hi.none⟩
  · rw [h1]
    have hm := mem_findRow h1
    simp only [doDelete, no_pointer h4]
    obtain ⟨t, ht, hs, he, hoth⟩ := removeValues_ok (cfg := cfg) (key := old.key) old.cells x.2 0
      db.tree hi.sorted (by rw [h4.len, h4.lenv]) (by
        intro i o v ho hv; rw [Nat.zero_add]; exact h4.cells i o v ho hv)
    simp only [Bool.false_eq_true, if_false, ht]
    refine ⟨_, rfl, hs, ?_, ?_, ?_⟩
    · exact hi.keys.filter _
    · have hk : without cfg old.key db.rows = without cfg k db.rows := by
        unfold without; rw [hm.2]
      simp only [hk]
      exact hrest.congr fun r hr a => hoth _ _ (by
        intro h; exact (without_keys r hr).2 (by rw [← h.1, hm.2]))
    · intro c hc a
      by_cases hck : c = cfg.cls old.key
      · subst hck
        by_cases ha : a < cfg.modes.length
        · exact he a (by omega) (by rw [h4.len]; omega)
        · rw [hoth _ _ (by rw [h4.len]; omega)]
          exact h4.beyond a (by omega)
      · rw [hoth _ _ (by intro h; exact hck h.1.symm)]
        apply hi.none c
        intro r hr hrc
        refine hc r (mem_without hr ?_) hrc
        rw [hrc]; exact hck

theorem update_ok {cfg : Cfg} (hg : Good cfg) {db : Db} {tbl : Spec.Tbl} (hi : Inv cfg E db tbl)
    (k k' : Nat) (srcs : List Src) (hcalm : calm cfg db (.update k k' srcs) = true)
    (hE : Gives cfg E db tbl srcs) :
    ∃ db', step cfg db (.update k k' srcs) = some db' ∧
      Inv cfg E db' (Spec.apply cfg.modes.length cfg.cls cfg.unpack tbl (.update k k' srcs)) := by
  simp only [step, doOp, Spec.apply]
  rcases hi.rows.find k with ⟨h1, h2⟩ | ⟨old, x, h1, h2, h3, h4⟩
  · rw [h1, h2]
    exact ⟨db, rfl, by simpa using hi⟩
  · rw [h1, h2]
    by_cases hl : srcs.length = cfg.modes.length
    · have hm := mem_findRow h1
      have hw : without cfg old.key db.rows = without cfg k db.rows := by
        unfold without; rw [hm.2]
      have hrest := hi.rows.without k
      simp only [hl, ne_eq, not_true, if_false, false_or, Option.isNone_some, Bool.false_eq_true]
      obtain ⟨cs, hcs, hlen, hcols⟩ := slotOf_ok hg hi.rows hl
      obtain ⟨hfit, hlen', hok⟩ := toastCols_ok hg hlen (by rw [List.length_map, hl, hlen]) hcols
      rw [hcs]
      simp only [doUpdate, hfit, Bool.not_true, no_pointer h4, Bool.false_eq_true, if_false, hw]
      have hlw : (srcs.map (Spec.value cfg.cls cfg.unpack tbl)).length = cfg.modes.length := by
        rw [List.length_map, hl]
      by_cases hkk : old.key = k'
      · -- the row is overwritten
        rw [if_pos hkk]
        simp only [calm] at hcalm
        rw [h1] at hcalm
        simp only [if_pos hkk, hcs] at hcalm
        obtain ⟨t, ht, hs, hst, hoth⟩ := updateValues_ok hg (snap := db.tree) (key := old.key)
          old.cells (toastCols cfg cs) x.2 _ 0 db.tree hi.sorted (by rw [hlen', h4.len])
          (by rw [h4.len, h4.lenv]) (by rw [hlw, h4.len]) (by
            intro i o v ho hv; rw [Nat.zero_add]; exact h4.cells i o v ho hv) hok
          (fun _ _ => rfl) hcalm
        simp only [ht]
        have hnone : Spec.lookup cfg.cls k'
            (tbl.filter fun r => !(cfg.cls r.1 == cfg.cls k)) = none := by
          rcases hrest.find k' with ⟨_, h⟩ | ⟨r, _, hr, _⟩
          · exact h
          · have := mem_findRow hr
            exact absurd (by rw [this.2, ← hkk, hm.2]) (without_keys r this.1).2
        rw [hnone]
        refine ⟨_, rfl, ?_⟩
        simp only [Option.isSome_none, Bool.false_eq_true, if_false]
        rw [← hkk]
        refine ⟨hs, ?_, ⟨rfl, ?_, ?_⟩, ?_⟩
        · refine List.pairwise_cons.mpr ⟨fun r hr => ?_, hi.keys.filter _⟩
          have := (without_keys r hr).2
          rw [← hm.2] at this
          exact this.symm
        · refine newRow hlen' hlw hst (fun a ha => ?_) (hE cs hcs hlen)
          rw [hoth _ _ (by rw [h4.len]; omega)]
          exact h4.beyond a ha
        · exact hrest.congr fun r hr a => hoth _ _ (by
            intro h; exact (without_keys r hr).2 (by rw [← h.1, hm.2]))
        · intro c hc a
          have hck : cfg.cls old.key ≠ c := 
            hc ⟨old.key, (toastCols cfg cs).map (cellOf cfg)⟩ (List.mem_cons_self ..)
          rw [hoth _ _ (by intro h; exact hck h.1)]
          apply hi.none c
          intro r hr hrc
          refine hc r (List.mem_cons_of_mem _ (mem_without hr ?_)) hrc
          rw [hrc, ← hm.2]; exact hck.symm
      · -- the row gets another key
        rw [if_neg hkk]
        simp only [calm] at hcalm
        rw [h1] at hcalm
        simp only [if_neg hkk] at hcalm
        have hcls : cfg.cls old.key ≠ cfg.cls k' := by simpa using hcalm
        rcases hrest.find k' with ⟨hn1, hn2⟩ | ⟨r, y, hn1, hn2, _, _⟩
        · rw [hn1, hn2]
          simp only [Option.isSome_none, Bool.false_eq_true, if_false]
          have hno : ∀ r ∈ db.rows, cfg.cls r.key ≠ cfg.cls k' := by
            intro r hr hrc
            by_cases hrk : cfg.cls r.key = cfg.cls k
            · exact hcls (by rw [hm.2, ← hrk, hrc])
            · exact findRow_none hn1 r (mem_without hr hrk) hrc
          have hemp := hi.none (cfg.cls k') hno
          obtain ⟨t, ht, hs, hst, hoth⟩ := insertValues_ok hg (snap := db.tree) (key := k')
            (toastCols cfg cs) _ 0 db.tree hi.sorted (by rw [hlw, hlen']) hok
            (fun a _ => hemp a)
          simp only [ht]
          obtain ⟨t2, ht2, hs2, he2, hoth2⟩ := removeValues_ok (cfg := cfg) (key := old.key)
            old.cells x.2 0 t hs (by rw [h4.len, h4.lenv]) (by
              intro i o v ho hv
              rw [Nat.zero_add]
              exact (h4.cells i o v ho hv).congr (hoth _ _ (by
                intro h; exact hcls h.1.symm)))
          simp only [ht2]
          have hkeep : ∀ a, sel (cfg.cls k') a t2 = sel (cfg.cls k') a t := fun a =>
            hoth2 _ _ (by intro h; exact hcls h.1)
          refine ⟨_, rfl, hs2, ?_, ⟨rfl, ?_, ?_⟩, ?_⟩
          · refine List.pairwise_cons.mpr ⟨fun r hr => ?_, hi.keys.filter _⟩
            exact (hno r (without_keys r hr).1).symm
          · refine newRow hlen' hlw (fun i c w hc hw' => (hst i c w hc hw').congr (hkeep _))
              (fun a ha => ?_) (hE cs hcs hlen)
            rw [hkeep, hoth _ _ (by omega)]
            exact hemp a
          · refine hrest.congr fun r hr a => ?_
            have hrk := without_keys r hr
            rw [hoth2 _ _ (by intro h; exact hrk.2 (by rw [← h.1, hm.2])),
              hoth _ _ (by intro h; exact hno r hrk.1 h.1.symm)]
          · intro c hc a
            have hck : cfg.cls k' ≠ c := hc _ (List.mem_cons_self ..)
            by_cases hco : c = cfg.cls old.key
            · subst hco
              by_cases ha : a < cfg.modes.length
              · exact he2 a (by omega) (by rw [h4.len]; omega)
              · rw [hoth2 _ _ (by rw [h4.len]; omega), hoth _ _ (by intro h; exact hck h.1)]
                exact h4.beyond a (by omega)
            · rw [hoth2 _ _ (by intro h; exact hco h.1.symm),
                hoth _ _ (by intro h; exact hck h.1)]
              apply hi.none c
              intro r hr hrc
              refine hc r (List.mem_cons_of_mem _ (mem_without hr ?_)) hrc
              rw [hrc, ← hm.2]; exact hco
        · rw [hn1, hn2]
          exact ⟨db, rfl, by simpa using hi⟩
    · simp only [ne_eq, hl, not_false_eq_true, if_true, true_or, or_true]
      exact ⟨db, rfl, hi⟩

theorem step_ok {cfg : Cfg} (hg : Good cfg) {db : Db} {tbl : Spec.Tbl} (hi : Inv cfg E db tbl)
    (op : Op) (hc : calm cfg db op = true) (hE : Gives cfg E db tbl op.srcs) :
    ∃ db', step cfg db op = some db' ∧
      Inv cfg E db' (Spec.apply cfg.modes.length cfg.cls cfg.unpack tbl op) := by
  cases op with
  | insert k srcs => exact insert_ok hg hi k srcs hE
  | update k k' srcs => exact update_ok hg hi k k' srcs hc hE
  | delete k => exact delete_ok hi k

theorem init_inv (cfg : Cfg) : Inv cfg E ⟨[], []⟩ [] :=
  ⟨List.Pairwise.nil, List.Pairwise.nil, trivial, fun _ _ _ => rfl⟩

theorem runFrom_ok {cfg : Cfg} (hg : Good cfg) : ∀ (ops : List Op) (db : Db) (tbl : Spec.Tbl),
    Inv cfg (fun _ _ _ => True) db tbl → calmRun cfg db ops = true →
    ∃ db', runFrom cfg db ops = some db' ∧
      Inv cfg (fun _ _ _ => True) db'
        (ops.foldl (Spec.apply cfg.modes.length cfg.cls cfg.unpack) tbl) := by
  intro ops
  induction ops with
  | nil => intro db tbl hi _; exact ⟨db, rfl, hi⟩
  | cons op ops ih =>
    intro db tbl hi hc
    unfold calmRun at hc
    rw [Bool.and_eq_true] at hc
    obtain ⟨db1, h1, hi1⟩ := step_ok hg hi op hc.1 (fun _ _ _ _ _ _ _ _ => trivial)
    have hc2 := hc.2
    rw [h1] at hc2
    obtain ⟨db2, h2, hi2⟩ := ih db1 _ hi1 hc2
    refine ⟨db2, ?_, hi2⟩
    unfold runFrom
    rw [h1]
    exact h2

end Verif.Toast
