import Verif.IndexAm.Inv

/-! # Uniqueness -/

namespace Verif.IndexAm

theorem keyValues_entry {t : Table} {d : Def} (h : Plain t d) (r : Row) :
    keyValues d r = (entry t d r).take d.nkey := by
  obtain ⟨tail, hl, _, _⟩ := (shape_of_plain h).leaf
  unfold keyValues entry
  apply List.ext_getElem?
  intro i
  rw [List.getElem?_map, List.getElem?_take, List.getElem?_take]
  by_cases hi : i < d.nkey
  · rw [if_pos hi, if_pos hi, List.getElem?_map, hl,
      List.getElem?_append_left (by rw [fillIndex_length]; have := h.nkey; omega)]
    unfold fillIndex
    rw [List.getElem?_mapIdx, Option.map_map]
    congr 1
    funext f
    exact (get_fillField ..).symm
  · rw [if_neg hi, if_neg hi]; rfl

/-- Entries of rows with equal key values are equal in the unique fields. -/
theorem sameKey_cmp {cls : Nat → Nat} {t : Table} {d : Def} (h : Plain t d) (hu : d.unique = true)
    {a b : Row} (hk : sameKey cls d a b) :
    cmpEq cls (makeIndex t d) (nUnique d (makeIndex t d)) (entry t d a) (entry t d b) = true := by
  unfold sameKey at hk
  rw [keyValues_entry h, keyValues_entry h] at hk
  unfold cmpEq nUnique
  rw [if_pos hu, (shape_of_plain h).nKey, List.all_eq_true]
  intro i hi
  rw [List.mem_range] at hi
  have := congrArg (fun l => l[i]?) hk
  simp only [List.getElem?_map, List.getElem?_take, if_pos hi] at this
  rw [Bool.or_eq_true]
  right
  unfold same
  rw [beq_iff_eq, List.getD_eq_getElem?_getD, List.getD_eq_getElem?_getD]
  cases ha : (entry t d a)[i]? <;> cases hb : (entry t d b)[i]? <;> rw [ha, hb] at this <;> simp_all

/-- Two rows are kept apart by the index, if they count. -/
def Apart (cls : Nat → Nat) (d : Def) (C : Row → Prop) (a b : Row) : Prop :=
  d.pred a = true → d.pred b = true → C a → C b → ¬ sameKey cls d a b

theorem Apart.symm {cls : Nat → Nat} {d : Def} {C : Row → Prop} {a b : Row}
    (h : Apart cls d C a b) : Apart cls d C b a := by
  intro h1 h2 h3 h4 h5
  exact h h2 h1 h4 h3 (Eq.symm h5)

theorem apart_added {cls : Nat → Nat} {t : Table} {d : Def} (h : Plain t d) (hu : d.unique = true)
    {C : Row → Prop} {rows : List Row} {es es' : List Tup} {r : Row} {ck : Bool}
    (hh : Holds t d rows es) (ha : Added cls t d ck r es es') (hc : C r → ck = true) :
    ∀ r' ∈ rows, Apart cls d C r r' := by
  intro r' hr' _ hp' hC _ hs
  have h1 := ha.uniq (hc hC)
  rw [List.any_eq_false] at h1
  refine h1 (entry t d r') ?_ (sameKey_cmp h hu hs)
  refine hh.symm.subset ?_
  exact List.mem_map_of_mem (List.mem_filter.mpr ⟨hr', hp'⟩)

/-- What uniqueness rests on: the rows which count (`C`) are checked when they come in.
`U` says whether there are UPDATEs, `F` what is known of all rows. -/
structure Checked (t : Table) (d : Def) (C F : Row → Prop) (U : Prop) : Prop where
  uniq : d.unique = true
  key : ∀ a b, keyValues d a = keyValues d b → C a → C b
  ins : ∀ r, F r → C r → (d.unique && (d.nnd || !hasNulls (entry t d r))) = true
  upd : U → ∀ r, F r → C r → (d.unique && !hasNulls (entry t d r)) = true

def Op.allowed (F : Row → Prop) (U : Prop) : Op → Prop
  | .insert cols => ∀ c, F { cols, ctid := c }
  | .update _ cols => U ∧ ∀ c, F { cols, ctid := c }
  | .delete _ => True

structure Uni (cls : Nat → Nat) (d : Def) (C F : Row → Prop) (rows : List Row) : Prop where
  apart : rows.Pairwise (Apart cls d C)
  full : ∀ r ∈ rows, F r

theorem Uni.perm {cls : Nat → Nat} {d : Def} {C F : Row → Prop} {l l' : List Row}
    (h : Uni cls d C F l) (hp : l.Perm l') : Uni cls d C F l' :=
  ⟨hp.pairwise h.apart (fun h => h.symm), fun r hr => h.full r (hp.symm.subset hr)⟩

theorem stepOp_uni {cls : Nat → Nat} {t : Table} {ds : List Def} (hd : ∀ d ∈ ds, Plain t d)
    {C F : Row → Prop} {U : Prop} {i : Nat} {d : Def} (hi : ds[i]? = some d)
    (hck : Checked t d C F U)
    {db db' : DB} (hinv : Inv cls t ds db) {op : Op} (ho : op.allowed F U)
    (hu : Uni cls d C F db.rows) (h : stepOp cls t ds db op = some db') :
    Uni cls d C F db'.rows := by
  have hpl := hd d (List.mem_of_getElem? hi)
  obtain ⟨es, hes⟩ := at_of_length hinv.len.symm hi
  cases op with
  | insert cols =>
    obtain ⟨hinv', hrows, _, hadd⟩ := doInsert_ok hd hinv h
    obtain ⟨es', hes'⟩ := at_of_length hinv'.len.symm hi
    rw [hrows]
    have hF := ho db.next
    refine ⟨List.pairwise_cons.mpr ⟨?_, hu.apart⟩, ?_⟩
    · intro r' hr' hp
      exact apart_added hpl hck.uniq (hinv.trees i d es hi hes) (hadd i d es es' hi hes hes' hp)
        (hck.ins _ hF) r' hr' hp
    · intro r hr
      rcases List.mem_cons.mp hr with hr | hr
      · rw [hr]; exact hF
      · exact hu.full r hr
  | update key cols =>
    unfold stepOp at h
    simp only at h
    cases hf : findRow cls t db key with
    | none => rw [hf] at h; rw [← Option.some.inj h]; exact hu
    | some old =>
      rw [hf] at h
      obtain ⟨hinv', rest, hperm, hrows, hadd⟩ := doUpdate_ok hd hinv (findRow_mem hf) h
      obtain ⟨es', hes'⟩ := at_of_length hinv'.len.symm hi
      have hu' := hu.perm hperm
      have hap := List.pairwise_cons.mp hu'.apart
      have hF := ho.2 old.ctid
      rw [hrows]
      refine ⟨List.pairwise_cons.mpr ⟨?_, hap.2⟩, ?_⟩
      · intro r' hr' hp
        rcases hadd i d es es' hi hes hes' hp with ⟨hpo, he⟩ | ⟨mid, hm, ha⟩
        · intro hp' hC hC' hs
          have hk : keyValues d old = keyValues d { cols, ctid := old.ctid } := by
            rw [keyValues_entry hpl, keyValues_entry hpl, he]
          refine hap.1 r' hr' hpo hp' (hck.key _ _ hk.symm hC) hC' ?_
          unfold sameKey at hs ⊢
          rw [hk]; exact hs
        · exact apart_added hpl hck.uniq hm ha (hck.upd ho.1 _ hF) r' hr' hp
      · intro r hr
        rcases List.mem_cons.mp hr with hr | hr
        · rw [hr]; exact hF
        · exact hu'.full r (List.mem_cons_of_mem _ hr)
  | delete key =>
    unfold stepOp at h
    simp only at h
    cases hf : findRow cls t db key with
    | none => rw [hf] at h; rw [← Option.some.inj h]; exact hu
    | some old =>
      rw [hf] at h
      simp only [Option.some.injEq] at h
      rw [← h]
      have hu' := hu.perm (doDelete_ok hd hinv (findRow_mem hf)).2
      exact ⟨(List.pairwise_cons.mp hu'.apart).2, fun r hr => hu'.full r (List.mem_cons_of_mem _ hr)⟩

theorem run_uni {cls : Nat → Nat} {t : Table} {ds : List Def} (hd : ∀ d ∈ ds, Plain t d)
    {C F : Row → Prop} {U : Prop} {i : Nat} {d : Def} (hi : ds[i]? = some d)
    (hck : Checked t d C F U) (ops : List Op) (ho : ∀ op ∈ ops, op.allowed F U) :
    Uni cls d C F (run cls t ds ops).rows := by
  unfold run
  have : ∀ (ops : List Op) (db : DB), (∀ op ∈ ops, op.allowed F U) → Inv cls t ds db →
      Uni cls d C F db.rows →
      Uni cls d C F (ops.foldl (fun db op => (stepOp cls t ds db op).getD db) db).rows := by
    intro ops
    induction ops with
    | nil => intro db _ _ hu; exact hu
    | cons op ops ih =>
      intro db ho hinv hu
      rw [List.foldl_cons]
      have ho' : ∀ op ∈ ops, op.allowed F U := fun x hx => ho x (List.mem_cons_of_mem _ hx)
      cases h : stepOp cls t ds db op with
      | none => exact ih db ho' hinv hu
      | some db' =>
        exact ih db' ho' (stepOp_ok hd hinv h)
          (stepOp_uni hd hi hck hinv (ho op (List.mem_cons_self ..)) hu h)
  exact this ops _ ho (init_ok cls t ds) ⟨List.Pairwise.nil, fun r hr => by cases hr⟩

/-- An entry has a null only where the row has one: in the key, the INCLUDE columns or
the primary key. -/
theorem hasNulls_entry {t : Table} {d : Def} (h : Plain t d) {r : Row}
    (hk : ∀ v ∈ keyValues d r, v ≠ none)
    (hf : ∀ f ∈ d.fields.drop d.nkey ++ t.pk.getD [], r.get f ≠ none) :
    hasNulls (entry t d r) = false := by
  have hs := shape_of_plain h
  obtain ⟨tail, hl, _, _⟩ := hs.leaf
  unfold hasNulls
  rw [List.any_eq_false]
  intro v hv hn
  rw [Option.isNone_iff_eq_none] at hn
  subst hn
  obtain ⟨i, hi⟩ := List.mem_iff_getElem?.mp hv
  have hlt : i < (makeIndex t d).leaf.length := by
    have := (List.getElem?_eq_some_iff.mp hi).1
    unfold entry at this
    rw [List.length_map] at this
    exact this
  have hget : ((makeIndex t d).leaf[i]?).bind r.get = none := by
    rw [← entry_get, List.getD_eq_getElem?_getD, hi]; rfl
  by_cases h1 : i < d.nkey
  · refine hk none ?_ rfl
    rw [keyValues_entry h]
    refine List.mem_iff_getElem?.mpr ⟨i, ?_⟩
    rw [List.getElem?_take, if_pos h1, hi]
  · by_cases h2 : i < d.fields.length
    · rw [hl, List.getElem?_append_left (by rw [fillIndex_length]; exact h2), fillIndex_get,
        List.getElem?_eq_getElem h2] at hget
      refine hf d.fields[i] ?_ hget
      rw [List.mem_append]
      left
      refine List.mem_iff_getElem?.mpr ⟨i - d.nkey, ?_⟩
      rw [List.getElem?_drop, show d.nkey + (i - d.nkey) = i by omega, List.getElem?_eq_getElem h2]
    · have hm := hs.pkAll i (by omega) hlt
      have : none ∈ pkOf t r := by
        rw [← hs.pk r, List.mem_map]
        exact ⟨i, hm, hget⟩
      unfold pkOf at this
      cases hp : t.pk with
      | none => rw [hp] at this; simp at this
      | some fs =>
        rw [hp] at this
        simp only [List.mem_map] at this
        obtain ⟨f, hfm, hfn⟩ := this
        refine hf f ?_ hfn
        rw [List.mem_append, hp]
        exact .inr hfm

end Verif.IndexAm
