import Verif.IndexAm.Spec

/-! # The layout of a plain index, and the entries formed for it -/

namespace Verif.IndexAm

theorem sameCol_comm (f g : Field) : f.sameCol g = g.sameCol f := by
  unfold Field.sameCol
  rw [Bool.eq_iff_iff]
  simp only [Bool.and_eq_true, beq_iff_eq]
  constructor
  · rintro ⟨⟨a, b⟩, c⟩; exact ⟨⟨b, a⟩, c.symm⟩
  · rintro ⟨⟨a, b⟩, c⟩; exact ⟨⟨b, a⟩, c.symm⟩

theorem get_sameCol {f g : Field} (h : f.sameCol g = true) (r : Row) : r.get f = r.get g := by
  unfold Field.sameCol at h
  simp only [Bool.and_eq_true, beq_iff_eq] at h
  obtain ⟨⟨a, b⟩, c⟩ := h
  unfold Row.get
  rw [a, b, c]

theorem fillField_spec (pk : Option (List Field)) (n i : Nat) (f : Field) :
    (fillField pk n i f).kind = f.kind ∧ (fillField pk n i f).att = f.att ∧
      (fillField pk n i f).tid = f.tid := by
  unfold fillField
  by_cases h : i < n
  · rw [if_pos h]; exact ⟨rfl, rfl, rfl⟩
  · rw [if_neg h]
    split <;> exact ⟨rfl, rfl, rfl⟩

theorem get_fillField (pk : Option (List Field)) (n i : Nat) (f : Field) (r : Row) :
    r.get (fillField pk n i f) = r.get f := by
  obtain ⟨a, b, _⟩ := fillField_spec pk n i f
  unfold Row.get
  rw [a, b]

theorem sameCol_fill (pk : Option (List Field)) (n i j : Nat) (f g : Field) :
    (fillField pk n i f).sameCol (fillField pk n j g) = f.sameCol g := by
  obtain ⟨a, b, _⟩ := fillField_spec pk n i f
  obtain ⟨c, d, _⟩ := fillField_spec pk n j g
  unfold Field.sameCol
  rw [a, b, c, d]

theorem sameCol_fill_right (pk : Option (List Field)) (n j : Nat) (f g : Field) :
    f.sameCol (fillField pk n j g) = f.sameCol g := by
  obtain ⟨c, d, _⟩ := fillField_spec pk n j g
  unfold Field.sameCol
  rw [c, d]

theorem addFields_plain (nkey : Nat) : ∀ (fs : List Field) (i : Nat) (ix : OIndex),
    (∀ f ∈ fs, ∀ g ∈ ix.leaf, f.sameCol g = false) →
    fs.Pairwise (fun f g => f.sameCol g = false) →
    addFields nkey i fs ix =
      { ix with leaf := ix.leaf ++ fs, pos := ix.pos ++ List.range' ix.leaf.length fs.length } := by
  intro fs
  induction fs with
  | nil => intro i ix _ _; simp [addFields]
  | cons f fs ih =>
    intro i ix h hp
    have hf : findExisting ix.leaf f = none := by
      unfold findExisting
      rw [List.findIdx?_eq_none_iff]
      intro g hg
      rw [h f (List.mem_cons_self ..) g hg]; rfl
    rw [List.pairwise_cons] at hp
    rw [addFields]
    have ha : addField nkey i ix f =
        { ix with leaf := ix.leaf ++ [f], pos := ix.pos ++ [ix.leaf.length] } := by
      unfold addField
      rw [hf]
    rw [ha, ih]
    · simp [List.range'_succ, List.append_assoc]
    · intro f' hf' g hg
      rcases List.mem_append.mp hg with hg | hg
      · exact h f' (List.mem_cons_of_mem _ hf') g hg
      · rw [List.mem_singleton] at hg
        rw [hg, sameCol_comm]
        exact hp.1 f' hf'
    · exact hp.2

theorem addPk_spec : ∀ (fs : List Field) (ix : OIndex),
    ∃ tail ps,
      (fs.foldl addPkField ix).leaf = ix.leaf ++ tail ∧
      (fs.foldl addPkField ix).pkAtt = ix.pkAtt ++ ps ∧
      (fs.foldl addPkField ix).dups = ix.dups ∧
      (fs.foldl addPkField ix).pos = ix.pos ∧
      (fs.foldl addPkField ix).nKey = ix.nKey ∧
      (fs.foldl addPkField ix).nIncl = ix.nIncl ∧
      (∀ r : Row, ps.map (fun p => ((ix.leaf ++ tail)[p]?).bind r.get) = fs.map r.get) ∧
      (∀ i, ix.leaf.length ≤ i → i < (ix.leaf ++ tail).length → i ∈ ps) ∧
      tail.length ≤ ps.length ∧
      (∀ p ∈ ps, p < (ix.leaf ++ tail).length ∧
        (p < ix.leaf.length → ∃ g f, ix.leaf[p]? = some g ∧ f ∈ fs ∧ f.sameCol g = true)) ∧
      (∀ f ∈ tail, f ∈ fs) := by
  intro fs
  induction fs with
  | nil =>
    intro ix
    refine ⟨[], [], by simp, by simp, rfl, rfl, rfl, rfl, by simp, ?_, by simp, by simp, by simp⟩
    intro i h1 h2
    simp at h2
    omega
  | cons f fs ih =>
    intro ix
    rw [List.foldl_cons]
    cases hf : findExisting ix.leaf f with
    | some j =>
      have ha : addPkField ix f = { ix with pkAtt := ix.pkAtt ++ [j] } := by
        unfold addPkField; rw [hf]
      obtain ⟨tail, ps, h1, h2, h3, h4, h5, h6, h7, h8, h9, h10, h11⟩ := ih (addPkField ix f)
      rw [ha] at h1 h2 h3 h4 h5 h6 h7 h8 h10 ⊢
      simp only at h1 h2 h3 h4 h5 h6 h7 h8 h10
      unfold findExisting at hf
      rw [List.findIdx?_eq_some_iff_getElem] at hf
      obtain ⟨hj, hm, _⟩ := hf
      rw [Bool.and_eq_true] at hm
      have hget : ix.leaf[j]? = some ix.leaf[j] := List.getElem?_eq_getElem hj
      refine ⟨tail, j :: ps, h1, by rw [h2]; simp, h3, h4, h5, h6, ?_, ?_, ?_, ?_, ?_⟩
      · intro r
        rw [List.map_cons, List.map_cons, h7 r]
        congr 1
        rw [List.getElem?_append_left hj, hget]
        exact (get_sameCol hm.1 r).symm
      · intro i a b
        exact List.mem_cons_of_mem _ (h8 i a b)
      · simp only [List.length_cons]; omega
      · intro p hp
        rcases List.mem_cons.mp hp with hp | hp
        · subst hp
          refine ⟨by rw [List.length_append]; omega, fun _ => ⟨_, f, hget, List.mem_cons_self .., hm.1⟩⟩
        · obtain ⟨a, b⟩ := h10 p hp
          refine ⟨a, fun hlt => ?_⟩
          obtain ⟨g, f', c, d, e⟩ := b hlt
          exact ⟨g, f', c, List.mem_cons_of_mem _ d, e⟩
      · intro f' hf'
        exact List.mem_cons_of_mem _ (h11 f' hf')
    | none =>
      have ha : addPkField ix f =
          { ix with leaf := ix.leaf ++ [f], pkAtt := ix.pkAtt ++ [ix.leaf.length] } := by
        unfold addPkField; rw [hf]
      obtain ⟨tail, ps, h1, h2, h3, h4, h5, h6, h7, h8, h9, h10, h11⟩ := ih (addPkField ix f)
      rw [ha] at h1 h2 h3 h4 h5 h6 h7 h8 h10 ⊢
      simp only [List.append_assoc, List.singleton_append] at h1 h2 h3 h4 h5 h6 h7 h8 h10
      refine ⟨f :: tail, ix.leaf.length :: ps, h1, h2, h3, h4, h5, h6, ?_, ?_, ?_, ?_, ?_⟩
      · intro r
        rw [List.map_cons, List.map_cons, h7 r]
        congr 1
        rw [List.getElem?_append_right (Nat.le_refl _), Nat.sub_self]
        rfl
      · intro i a b
        by_cases hi : i = ix.leaf.length
        · rw [hi]; exact List.mem_cons_self ..
        · refine List.mem_cons_of_mem _ (h8 i ?_ b)
          rw [List.length_append]
          simp only [List.length_cons, List.length_nil]
          omega
      · simp only [List.length_cons]; omega
      · intro p hp
        rcases List.mem_cons.mp hp with hp | hp
        · subst hp
          refine ⟨by rw [List.length_append]; simp, fun h => absurd h (Nat.lt_irrefl _)⟩
        · obtain ⟨a, b⟩ := h10 p hp
          refine ⟨a, fun hlt => ?_⟩
          obtain ⟨g, f', c, d, e⟩ := b (by rw [List.length_append]; omega)
          rw [List.getElem?_append_left hlt] at c
          exact ⟨g, f', c, List.mem_cons_of_mem _ d, e⟩
      · intro f' hf'
        rcases List.mem_cons.mp hf' with h | h
        · rw [h]; exact List.mem_cons_self ..
        · exact List.mem_cons_of_mem _ (h11 f' h)

/-- What is known of the layout of a plain index. -/
structure Shape (t : Table) (d : Def) (ix : OIndex) : Prop where
  leaf : ∃ tail, ix.leaf = fillIndex t d ++ tail ∧ tail.length ≤ ix.pkAtt.length ∧
    (t.pk = none → tail = [ctidField])
  dups : ix.dups = []
  pos : ix.pos = List.range d.fields.length
  nKey : ix.nKey = d.nkey
  nIncl : ix.nIncl = d.fields.length - d.nkey
  pk : ∀ r : Row, ix.pkAtt.map (fun p => (ix.leaf[p]?).bind r.get) = pkOf t r
  pkAll : ∀ i, d.fields.length ≤ i → i < ix.leaf.length → i ∈ ix.pkAtt
  pkIn : ∀ p ∈ ix.pkAtt, p < ix.leaf.length ∧ ix.ignored p = false
  noTid : t.pk ≠ none → ∀ f ∈ ix.leaf, f.tid = false
  noTid' : ∀ f ∈ fillIndex t d, f.tid = false

theorem fillIndex_length (t : Table) (d : Def) : (fillIndex t d).length = d.fields.length := by
  unfold fillIndex; simp

theorem fillIndex_get (t : Table) (d : Def) (i : Nat) (r : Row) :
    ((fillIndex t d)[i]?).bind r.get = (d.fields[i]?).bind r.get := by
  unfold fillIndex
  rw [List.getElem?_mapIdx]
  cases d.fields[i]? with
  | none => rfl
  | some f => exact get_fillField ..

theorem fillIndex_pairwise {t : Table} {d : Def} (h : Plain t d) :
    (fillIndex t d).Pairwise (fun f g => f.sameCol g = false) := by
  have hp := h.once
  unfold fillIndex
  rw [List.pairwise_iff_getElem] at hp ⊢
  intro i j hi hj hij
  rw [List.getElem_mapIdx, List.getElem_mapIdx, sameCol_fill]
  rw [List.length_mapIdx] at hi hj
  exact hp i j hi hj hij

theorem fillIndex_tid {t : Table} {d : Def} (h : Plain t d) :
    ∀ f ∈ fillIndex t d, f.tid = false := by
  intro f hf
  unfold fillIndex at hf
  rw [List.mem_mapIdx] at hf
  obtain ⟨i, hi, rfl⟩ := hf
  rw [(fillField_spec _ _ _ _).2.2]
  exact h.noTid _ (List.getElem_mem hi)

/-- The columns are laid out one after the other. -/
theorem base_spec {t : Table} {d : Def} (h : Plain t d) :
    (let ix := addFields d.nkey 0 (fillIndex t d)
        { nKey := d.nkey, nIncl := d.fields.length - d.nkey }
     if d.fields.length == d.nkey then { ix with nKey := ix.leaf.length } else ix) =
      { leaf := fillIndex t d, dups := [], pos := List.range d.fields.length, nKey := d.nkey,
        nIncl := d.fields.length - d.nkey, pkAtt := [] } := by
  have ha := addFields_plain d.nkey (fillIndex t d) 0
    { nKey := d.nkey, nIncl := d.fields.length - d.nkey } (by simp) (fillIndex_pairwise h)
  simp only
  rw [ha]
  simp only [List.nil_append, List.length_nil, fillIndex_length]
  rw [← List.range_eq_range']
  by_cases hn : d.fields.length = d.nkey
  · simp [hn]
  · have : (d.fields.length == d.nkey) = false := by simp [hn]
    rw [this]
    rfl

theorem shape_of_plain {t : Table} {d : Def} (h : Plain t d) : Shape t d (makeIndex t d) := by
  have hb := base_spec h
  simp only at hb
  cases hpk : t.pk with
  | none =>
    have hm : makeIndex t d =
        { leaf := fillIndex t d ++ [ctidField], dups := [], pos := List.range d.fields.length,
          nKey := d.nkey, nIncl := d.fields.length - d.nkey,
          pkAtt := [(fillIndex t d).length] } := by
      unfold makeIndex
      simp only
      rw [hb, hpk]
      simp
    rw [hm]
    refine ⟨⟨[ctidField], rfl, by simp, fun _ => rfl⟩, rfl, rfl, rfl, rfl, ?_, ?_, ?_, ?_,
      fillIndex_tid h⟩
    · intro r
      simp only [List.map_cons, List.map_nil]
      rw [List.getElem?_append_right (Nat.le_refl _), Nat.sub_self]
      unfold pkOf
      rw [hpk]
      rfl
    · intro i h1 h2
      simp only [List.length_append, List.length_cons, List.length_nil, fillIndex_length] at h2
      simp only [List.mem_singleton, fillIndex_length]
      omega
    · intro p hp
      simp only [List.mem_singleton, fillIndex_length] at hp
      refine ⟨?_, ?_⟩
      · simp only [List.length_append, List.length_cons, List.length_nil, fillIndex_length]
        omega
      · unfold OIndex.ignored
        simp only
        rw [Bool.and_eq_false_iff]
        right
        have := h.nkey
        simp only [decide_eq_false_iff_not]
        omega
    · intro hne
      exact absurd hpk hne
  | some fs =>
    obtain ⟨tail, ps, h1, h2, h3, h4, h5, h6, h7, h8, h9, h10, h11⟩ := addPk_spec fs
      { leaf := fillIndex t d, dups := [], pos := List.range d.fields.length, nKey := d.nkey,
        nIncl := d.fields.length - d.nkey, pkAtt := [] }
    have hm : makeIndex t d = fs.foldl addPkField
        { leaf := fillIndex t d, dups := [], pos := List.range d.fields.length, nKey := d.nkey,
          nIncl := d.fields.length - d.nkey, pkAtt := [] } := by
      unfold makeIndex
      simp only
      rw [hb, hpk]
    simp only [List.nil_append] at h1 h2 h3 h4 h5 h6 h7 h8 h9 h10 h11
    rw [hm]
    have hfs : t.pk.getD [] = fs := by rw [hpk]; rfl
    refine ⟨⟨tail, h1, by rw [h2]; exact h9, fun hne => by rw [hpk] at hne; cases hne⟩, h3, h4,
      h5, h6, ?_, ?_, ?_, ?_, fillIndex_tid h⟩
    · intro r
      rw [h1, h2, h7]
      unfold pkOf
      rw [hpk]
    · intro i a b
      rw [h2]
      rw [h1] at b
      exact h8 i (by rw [fillIndex_length]; exact a) b
    · intro p hp
      rw [h2] at hp
      obtain ⟨a, b⟩ := h10 p hp
      rw [h1]
      refine ⟨a, ?_⟩
      unfold OIndex.ignored
      rw [h5, h6, Bool.and_eq_false_iff]
      by_cases hlt : p < d.fields.length
      · left
        rw [decide_eq_false_iff_not]
        intro hk
        obtain ⟨g, f, c, hf, hs⟩ := b (by rw [fillIndex_length]; exact hlt)
        unfold fillIndex at c
        rw [List.getElem?_mapIdx, List.getElem?_eq_getElem hlt] at c
        simp only [Option.map_some, Option.some.injEq] at c
        rw [← c, sameCol_fill_right] at hs
        have hmem : d.fields[p] ∈ d.fields.drop d.nkey := by
          rw [List.mem_iff_getElem?]
          refine ⟨p - d.nkey, ?_⟩
          rw [List.getElem?_drop]
          have : d.nkey + (p - d.nkey) = p := by omega
          rw [this, List.getElem?_eq_getElem hlt]
        have := h.noPk _ hmem f (by rw [hfs]; exact hf)
        rw [hs] at this
        cases this
      · right
        have := h.nkey
        simp only [decide_eq_false_iff_not]
        omega
    · intro _ f hf
      rw [h1] at hf
      rcases List.mem_append.mp hf with hf | hf
      · exact fillIndex_tid h f hf
      · exact (h.pkCols f (by rw [hfs]; exact h11 f hf)).2

theorem bound_att : ∀ fs : List Field, ∃ n, ∀ f ∈ fs, f.att < n := by
  intro fs
  induction fs with
  | nil => exact ⟨0, by simp⟩
  | cons f fs ih =>
    obtain ⟨n, h⟩ := ih
    refine ⟨n + f.att + 1, ?_⟩
    intro g hg
    rcases List.mem_cons.mp hg with hg | hg
    · subst hg; omega
    · have := h g hg; omega

theorem length_le_of_nodup : ∀ (n : Nat) (l : List Nat), l.Nodup → (∀ x ∈ l, x < n) → l.length ≤ n := by
  intro n
  induction n with
  | zero =>
    intro l _ h
    cases l with
    | nil => simp
    | cons x l => exact absurd (h x (List.mem_cons_self ..)) (by omega)
  | succ n ih =>
    intro l hn h
    have := ih (l.erase n) (hn.erase n) (by
      intro x hx
      rw [hn.mem_erase_iff] at hx
      have := h x hx.2
      omega)
    by_cases hm : n ∈ l
    · rw [List.length_erase_of_mem hm] at this; omega
    · rw [List.erase_of_not_mem hm] at this; omega

/-- The key of the primary index has no more fields than the entry. -/
theorem pkAtt_length {t : Table} {d : Def} (h : Plain t d) :
    (makeIndex t d).pkAtt.length ≤ (makeIndex t d).leaf.length := by
  have hs := shape_of_plain h
  refine length_le_of_nodup _ _ ?_ (fun p hp => (hs.pkIn p hp).1)
  cases hpk : t.pk with
  | none =>
    have hl := congrArg List.length (hs.pk { cols := [], ctid := 0 })
    unfold pkOf at hl
    rw [hpk, List.length_map] at hl
    match hq : (makeIndex t d).pkAtt, hl with
    | [x], _ => simp
  | some fs =>
    obtain ⟨n, hn⟩ := bound_att fs
    have hfs : t.pk.getD [] = fs := by rw [hpk]; rfl
    have hq := hs.pk { cols := (List.range n).map some, ctid := 0 }
    have hnd : (pkOf t { cols := (List.range n).map some, ctid := 0 }).Nodup := by
      unfold pkOf
      rw [hpk]
      simp only
      have hval : ∀ f ∈ fs, Row.get { cols := (List.range n).map some, ctid := 0 } f = some f.att := by
        intro f hf
        unfold Row.get
        rw [(h.pkCols f (by rw [hfs]; exact hf)).1]
        simp only
        rw [List.getD_eq_getElem?_getD, List.getElem?_map, List.getElem?_range (hn f hf)]
        rfl
      rw [List.map_congr_left hval]
      have hp := h.pkOnce
      rw [hfs] at hp
      rw [List.Nodup, List.pairwise_map]
      rw [List.pairwise_iff_getElem] at hp ⊢
      intro i j hi hj hij he
      have := hp i j hi hj hij
      unfold Field.sameCol at this
      rw [(h.pkCols _ (by rw [hfs]; exact List.getElem_mem hi)).1,
        (h.pkCols _ (by rw [hfs]; exact List.getElem_mem hj)).1] at this
      simp only [Option.some.injEq] at he
      rw [he] at this
      simp at this
    rw [← hq] at hnd
    rw [List.Nodup, List.pairwise_map] at hnd
    exact hnd.imp fun hne he => hne (by rw [he])

/-- The entry of a row: the row's value in each field. -/
def entry (t : Table) (d : Def) (r : Row) : Tup := (makeIndex t d).leaf.map r.get

theorem entry_get (t : Table) (d : Def) (r : Row) (i : Nat) :
    (entry t d r).getD i none = ((makeIndex t d).leaf[i]?).bind r.get := by
  unfold entry
  rw [List.getD_eq_getElem?_getD, List.getElem?_map]
  cases (makeIndex t d).leaf[i]? with
  | none => rfl
  | some f => rfl

/-- Element `i` of the arrays holds the row's value in field `i`. -/
def Good (leaf : List Field) (r : Row) (a : Arr) (i : Nat) : Prop :=
  (if a.n i then none else some (a.v i)) = (leaf[i]?).bind r.get

theorem upd_good {leaf : List Field} {r : Row} {a : Arr} {p : Nat} {x : Option Nat}
    (hx : x = (leaf[p]?).bind r.get) (i : Nat) (hi : i = p ∨ Good leaf r a i) :
    Good leaf r { v := upd a.v p (x.getD 0), n := upd a.n p x.isNone } i := by
  unfold Good upd
  by_cases h : i = p
  · subst h
    simp only [if_true]
    rw [← hx]
    cases x <;> simp
  · simp only [if_neg h]
    rcases hi with hi | hi
    · exact absurd hi h
    · exact hi

theorem append_good {leaf : List Field} {r : Row} (k : Nat) : ∀ (l : List (Nat × Option Nat)) (a : Arr),
    (∀ p ∈ l, p.2 = (leaf[p.1]?).bind r.get) → ∀ i,
    (Good leaf r a i ∨ (k ≤ i ∧ ∃ p ∈ l, p.1 = i)) →
    Good leaf r (l.foldl (appendOne k) a) i := by
  intro l
  induction l with
  | nil =>
    intro a _ i hi
    rcases hi with hi | ⟨_, p, hp, _⟩
    · exact hi
    · cases hp
  | cons q l ih =>
    intro a h i hi
    rw [List.foldl_cons]
    apply ih _ (fun p hp => h p (List.mem_cons_of_mem _ hp))
    rcases hi with hi | ⟨hk, p, hp, he⟩
    · left
      unfold appendOne
      by_cases hq : k ≤ q.1
      · rw [if_pos hq]
        exact upd_good (h q (List.mem_cons_self ..)) i (.inr hi)
      · rw [if_neg hq]; exact hi
    · rcases List.mem_cons.mp hp with hp | hp
      · left
        subst hp
        unfold appendOne
        rw [if_pos (by omega)]
        exact upd_good (h p (List.mem_cons_self ..)) i (.inl he.symm)
      · right
        exact ⟨hk, p, hp, he⟩

theorem zip_map_self {α β : Type} (f : α → β) : ∀ l : List α, l.zip (l.map f) = l.map fun x => (x, f x) := by
  intro l
  induction l with
  | nil => rfl
  | cons x l ih => simp [ih]

/-- The entry which the access method forms. -/
theorem amEntry_eq {t : Table} {d : Def} (h : Plain t d) (r : Row) :
    amEntry t d r = entry t d r := by
  have hs := shape_of_plain h
  obtain ⟨tail, hl, htl, hnone⟩ := hs.leaf
  have hlen : (makeIndex t d).leaf.length = d.fields.length + tail.length := by
    rw [hl, List.length_append, fillIndex_length]
  have hbase : ∀ i, i < d.fields.length → Good (makeIndex t d).leaf r (formDatum d r) i := by
    intro i hi
    unfold Good formDatum
    simp only
    have : ((makeIndex t d).leaf[i]?).bind r.get = (d.fields[i]?).bind r.get := by
      rw [hl, List.getElem?_append_left (by rw [fillIndex_length]; exact hi), fillIndex_get]
    rw [this]
    cases (d.fields[i]?).bind r.get <;> simp
  have hall : ∀ i, i < (makeIndex t d).leaf.length →
      Good (makeIndex t d).leaf r (appendRowid t (makeIndex t d) r (formDatum d r)) i := by
    intro i hi
    unfold appendRowid
    cases hpk : t.pk with
    | some fs =>
      simp only
      by_cases hc : (makeIndex t d).pkAtt.length ≤ (makeIndex t d).leaf.length
      · rw [if_pos hc, ← hs.pk r, zip_map_self]
        apply append_good
        · intro p hp
          rw [List.mem_map] at hp
          obtain ⟨x, _, rfl⟩ := hp
          rfl
        · by_cases hi' : i < d.fields.length
          · exact .inl (hbase i hi')
          · right
            refine ⟨by omega, (i, ((makeIndex t d).leaf[i]?).bind r.get), ?_, rfl⟩
            rw [List.mem_map]
            exact ⟨i, hs.pkAll i (by omega) hi, rfl⟩
      · exact absurd (pkAtt_length h) hc
    | none =>
      have ht := hnone hpk
      simp only
      have hlen' : (makeIndex t d).leaf.length - 1 = d.fields.length := by
        rw [hlen, ht]; rfl
      have := upd_good (leaf := (makeIndex t d).leaf) (r := r) (a := formDatum d r)
        (p := (makeIndex t d).leaf.length - 1) (x := some r.ctid)
        (by
          rw [hlen', hl, List.getElem?_append_right (by rw [fillIndex_length]; exact Nat.le_refl _),
            fillIndex_length, Nat.sub_self, ht]
          rfl) i (by
          by_cases hi' : i < d.fields.length
          · exact .inr (hbase i hi')
          · left
            rw [hlen, ht] at hi
            simp only [List.length_cons, List.length_nil] at hi
            omega)
      exact this
  unfold amEntry formTuple entry
  apply List.ext_getElem?
  intro i
  rw [List.getElem?_map, List.getElem?_map]
  by_cases hi : i < (makeIndex t d).leaf.length
  · rw [List.getElem?_range hi]
    have := hall i hi
    unfold Good at this
    simp only [Option.map_some]
    rw [this, List.getElem?_eq_getElem hi]
    rfl
  · rw [List.getElem?_eq_none (by rw [List.length_range]; omega), List.getElem?_eq_none (by omega)]
    rfl

end Verif.IndexAm
