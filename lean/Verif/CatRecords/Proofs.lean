import Verif.CatRecords.Model

/-! Lemmas about the readers and writers of catalog records. -/

namespace Verif.CatRecords

theorem le_length : ∀ w v, (le w v).length = w
  | 0, _ => rfl
  | w + 1, v => by simp only [le, List.length_cons, le_length w]

theorem unle_le : ∀ w v, v < 256 ^ w → unle (le w v) = v
  | 0, v, h => by
    have : v = 0 := by simpa using h
    rw [this]; rfl
  | w + 1, v, h => by
    have h2 : v / 256 < 256 ^ w := by
      rw [Nat.div_lt_iff_lt_mul (by decide)]; rw [Nat.pow_succ] at h; exact h
    simp only [le, unle]
    rw [unle_le w _ h2, UInt8.toNat_ofNat']
    omega

theorem patch_self (s : Bytes) (off n : Nat) (h : off + n ≤ s.length) : patch s off (slice s off n) = s := by
  have hl : (slice s off n).length = n := by simp only [slice, List.length_take, List.length_drop]; omega
  unfold patch
  rw [hl]
  unfold slice
  rw [← List.drop_drop, List.append_assoc, List.take_append_drop, List.take_append_drop]

/-! ### Reading what was written -/

/-- The reader takes exactly `b` from the front of the data and returns `x`. -/
def Rt {α : Type} (p : P α) (b : Bytes) (x : α) : Prop := ∀ r, p (b ++ r) = some (x, r)

theorem Rt.bind {α β : Type} {p : P α} {f : α → P β} {b b' : Bytes} {x : α} {y : β}
    (h : Rt p b x) (h' : Rt (f x) b' y) : Rt (p >>= f) (b ++ b') y := by
  intro r
  show (p (b ++ b' ++ r)).bind (fun q => f q.1 q.2) = _
  rw [List.append_assoc, h]
  exact h' r

theorem Rt.last {α β : Type} {p : P α} {f : α → P β} {b : Bytes} {x : α} {y : β}
    (h : Rt p b x) (h' : Rt (f x) [] y) : Rt (p >>= f) b y := by
  have := h.bind h'
  rwa [List.append_nil] at this

theorem Rt.ret {α : Type} (x : α) : Rt (pure x : P α) [] x := fun _ => rfl

theorem rt_rd {n : Nat} {b : Bytes} (h : b.length = n) : Rt (rd n) b b := by
  intro r
  unfold rd
  rw [if_neg (by rw [List.length_append]; omega), ← h, List.take_left, List.drop_left]

theorem cstr_nul (s : Bytes) (h : ∀ b ∈ s, b ≠ 0) : cstr (s ++ [0]) = s := by
  unfold cstr
  rw [List.takeWhile_append_of_pos (fun a ha => by simpa using h a ha)]
  simp

/-- A text without NUL bytes whose length fits a `size_t`. -/
def TextOk (s : Bytes) : Prop := (∀ b ∈ s, b ≠ 0) ∧ s.length + 1 < 2 ^ 64

instance (s : Bytes) : Decidable (TextOk s) := inferInstanceAs (Decidable (_ ∧ _))

theorem rt_string (o : Option Bytes) (h : ∀ s, o = some s → TextOk s) : Rt deString (serString o) o := by
  cases o with
  | none =>
    refine Rt.last (rt_rd (le_length 8 0)) ?_
    rw [if_neg (by decide)]
    exact Rt.ret _
  | some s =>
    obtain ⟨h1, h2⟩ := h s rfl
    have e : unle (le 8 (s.length + 1)) = s.length + 1 := unle_le 8 _ h2
    refine Rt.bind (rt_rd (le_length 8 _)) ?_
    rw [e, if_pos (by omega)]
    refine Rt.last (rt_rd (by simp)) ?_
    rw [cstr_nul s h1]
    exact Rt.ret _

theorem rt_node (ver ver' : Nat) (txt : Bytes) (hv : ver < 2 ^ 32) (h : TextOk txt) :
    Rt (deNode ver') (serNode ver txt)
      (if ver / 10000 = ver' / 10000 then (txt, false) else (nullNode, !strIsEmpty txt)) := by
  have e : unle (le 8 (txt.length + 1)) = txt.length + 1 := unle_le 8 _ h.2
  have e' : unle (le 4 ver) = ver := unle_le 4 _ hv
  refine Rt.bind (rt_rd (le_length 4 _)) ?_
  refine Rt.bind (rt_rd (le_length 8 _)) ?_
  rw [e, e']
  refine Rt.last (rt_rd (by simp)) ?_
  rw [cstr_nul txt h.1]
  unfold compatible
  by_cases hc : ver / 10000 = ver' / 10000
  · rw [if_pos (by simpa using hc), if_pos hc]; exact Rt.ret _
  · rw [if_neg (by simpa using hc), if_neg hc]; exact Rt.ret _

/-! ### More data does not change what was read -/

/-- What is read does not depend on what follows. -/
def St {α : Type} (p : P α) : Prop := ∀ s x r t, p s = some (x, r) → p (s ++ t) = some (x, r ++ t)

theorem St.bind {α β : Type} {p : P α} {f : α → P β} (h : St p) (h' : ∀ x, St (f x)) : St (p >>= f) := by
  intro s y r t hs
  change (p s).bind (fun q => f q.1 q.2) = _ at hs
  show (p (s ++ t)).bind (fun q => f q.1 q.2) = _
  cases hp : p s with
  | none => rw [hp] at hs; cases hs
  | some q =>
    rw [hp] at hs
    rw [h s q.1 q.2 t hp]
    exact h' q.1 q.2 y r t hs

theorem St.ret {α : Type} (x : α) : St (pure x : P α) := by
  intro s y r t h
  cases h
  rfl

theorem st_rd (n : Nat) : St (rd n) := by
  intro s x r t h
  unfold rd at h ⊢
  by_cases hl : s.length < n
  · rw [if_pos hl] at h; cases h
  · rw [if_neg hl] at h
    injection h with h
    injection h with h1 h2
    rw [if_neg (by rw [List.length_append]; omega), List.take_append_of_le_length (by omega),
      List.drop_append_of_le_length (by omega), h1, h2]

theorem st_ite {α : Type} (c : Prop) [Decidable c] {p q : P α} (h : St p) (h' : St q) :
    St (if c then p else q) := by
  by_cases hc : c
  · rw [if_pos hc]; exact h
  · rw [if_neg hc]; exact h'

theorem st_rdIf (c : Bool) (n : Nat) : St (rdIf c n) := st_ite _ (st_rd _) (St.ret _)

theorem st_string : St deString := by
  unfold deString
  refine (st_rd _).bind fun n => st_ite _ ((st_rd _).bind fun s => St.ret _) (St.ret _)

theorem st_node (ver : Nat) : St (deNode ver) := by
  unfold deNode
  refine (st_rd _).bind fun v => (st_rd _).bind fun n => (st_rd _).bind fun s => st_ite _ (St.ret _) (St.ret _)

theorem st_fail {α : Type} : St (failure : P α) := by
  intro s y r t h
  cases h

theorem st_tindex (L : Lay) (ver : Nat) : St (deTIndex L ver) := by
  unfold deTIndex
  exact (st_rd _).bind fun head => (st_rd _).bind fun ef => (st_node _).bind fun pred => st_string.bind fun ps =>
    (st_node _).bind fun ex => (st_rd _).bind fun spc => (st_rdIf _ _).bind fun excl =>
      (st_rd _).bind fun imm => St.ret _

theorem st_tindices (L : Lay) (ver : Nat) : ∀ n, St (deTIndices L ver n)
  | 0 => St.ret _
  | n + 1 => (st_tindex L ver).bind fun _ => (st_tindices L ver n).bind fun _ => St.ret _

theorem st_datum : St deDatum := by
  unfold deDatum
  exact (st_rd _).bind fun h => st_ite _ (St.ret _) (st_ite _ ((st_rd _).bind fun b => St.ret _)
    (st_ite _ st_fail ((st_rd _).bind fun b => St.ret _)))

theorem st_missings : ∀ n, St (deMissings n)
  | 0 => St.ret _
  | n + 1 => (st_rd _).bind fun _ => st_datum.bind fun _ => (st_missings n).bind fun _ => St.ret _

theorem st_table (L : Lay) (ver : Nat) : St (deTableBody L ver) := by
  unfold deTableBody
  exact (st_rd _).bind fun head => (st_tindices L ver _).bind fun xs => (st_rd _).bind fun fields =>
    (st_missings _).bind fun ms => (st_rd _).bind fun spc => St.ret _

theorem st_index (L : Lay) (ver : Nat) (key : Key) (head : Bytes) : St (deIndexBody L ver key head) := by
  unfold deIndexBody
  exact (st_rd _).bind fun ltf => (st_rd _).bind fun lf => (st_node _).bind fun pred => st_string.bind fun ps =>
    (st_node _).bind fun ex => (st_node _).bind fun dup => (st_rdIf _ _).bind fun excl =>
      (st_rd _).bind fun imm => St.ret _

/-! ### Well-formed tables and indexes -/

/-- The offsets of the tablespace lie within the structures. -/
structure Lay.Ok (L : Lay) : Prop where
  t : L.tSpc + 4 ≤ L.tLen
  x : L.xSpc + 4 ≤ L.xLen

/-- The arrays of the index have the lengths its counts say, and its texts are C strings.
Only an exclusion constraint has `exclops`.  `nodeToString` never gives an empty text. -/
structure TIndex.Ok (L : Lay) (x : TIndex) : Prop where
  head : x.head.length = L.xLen
  exprs : x.exprFields.length = unle (slice x.head L.xNexpr 1) * L.field
  pred : TextOk x.predicate ∧ x.predicate ≠ []
  predStr : ∀ s, x.predicateStr = some s → TextOk s
  expr : TextOk x.expressions ∧ x.expressions ≠ []
  excl : x.exclops.length = if unle (slice x.head L.xType 4) = exclusion then 4 * unle (slice x.head L.xNkey 1) else 0

/-- A missing value is absent, or is a datum of the kind its attribute has. -/
def MissOk (byval : Bool) (m : Missing) : Prop :=
  if m.present = 0 then m.value = .null else
  match m.value with
  | .null => False
  | .val b => byval = true ∧ b.length = 8
  | .ref b => byval = false ∧ b.length < 2 ^ 31

/-- The arrays of the table have the lengths its counts say. -/
structure Table.Ok (L : Lay) (t : Table) : Prop where
  version : unle (slice t.head L.tVersion 2) = sysTreeVersion
  head : t.head.length = L.tLen
  nindices : t.indices.length = unle (slice t.head L.tNindices 2)
  indices : ∀ x ∈ t.indices, x.Ok L
  fields : t.fields.length = unle (slice t.head L.tNfields 2) * L.field
  nmissing : t.missing.length = unle (slice t.head L.tNfields 2)
  missing : ∀ i m, t.missing[i]? = some m → MissOk (byvalOf L t.fields i) m

/-- The arrays of the index have the lengths its counts say, and its texts are C strings. -/
structure Index.Ok (L : Lay) (x : Index) : Prop where
  version : unle (slice x.head L.oVersion 2) = sysTreeVersion
  head : x.head.length = L.oLen
  ltf : x.leafTableFields.length = unle (slice x.head L.oNleaf 2) * L.field
  lf : x.leafFields.length = unle (slice x.head L.oNleaf 2) * L.ixField
  pred : TextOk x.predicate ∧ x.predicate ≠ []
  predStr : ∀ s, x.predicateStr = some s → TextOk s
  expr : TextOk x.expressions ∧ x.expressions ≠ []
  dup : TextOk x.duplicates ∧ x.duplicates ≠ []
  excl : x.exclops.length = if x.key.type = exclusion then 4 * unle (slice x.head L.oNkey 2) else 0

/-- The same index without its node trees. -/
def TIndex.bare (x : TIndex) : TIndex := { x with predicate := nullNode, expressions := nullNode }

/-- The same table without the node trees of its indexes. -/
def Table.bare (t : Table) : Table := { t with indices := t.indices.map TIndex.bare }

/-- The same index without its node trees. -/
def Index.bare (x : Index) : Index :=
  { x with predicate := nullNode, expressions := nullNode, duplicates := nullNode }

/-- Some index of the table has a node tree. -/
def Table.HasNodes (t : Table) : Prop :=
  ∃ x ∈ t.indices, x.predicate ≠ nullNode ∨ x.expressions ≠ nullNode

/-- The index has a node tree. -/
def Index.HasNodes (x : Index) : Prop :=
  x.predicate ≠ nullNode ∨ x.expressions ≠ nullNode ∨ x.duplicates ≠ nullNode

theorem notEmpty_iff {txt : Bytes} (h : txt ≠ []) : (!strIsEmpty txt) = true ↔ txt ≠ nullNode := by
  simp [strIsEmpty, h]

/-! ### Tables -/

/-- What reading an index of a table gives. -/
def tgot (ver ver' : Nat) (x : TIndex) : TIndex × Bool :=
  if ver / 10000 = ver' / 10000 then (x, false)
  else (x.bare, !strIsEmpty x.predicate || !strIsEmpty x.expressions)

theorem rt_excl (c : Prop) [Decidable c] (n : Nat) (b : Bytes) (h : b.length = if c then n else 0) :
    Rt (rdIf c n) (if c then b else []) b := by
  unfold rdIf
  simp only [decide_eq_true_eq]
  by_cases hc : c
  · rw [if_pos hc, if_pos hc]; rw [if_pos hc] at h; exact rt_rd h
  · rw [if_neg hc, if_neg hc]; rw [if_neg hc] at h
    rw [List.eq_nil_of_length_eq_zero h]
    exact Rt.ret _

theorem rt_tindex (L : Lay) (hL : L.Ok) (ver ver' : Nat) (hv : ver < 2 ^ 32) (x : TIndex) (h : x.Ok L) :
    Rt (deTIndex L ver') (serTIndex L ver x) (tgot ver ver' x) := by
  unfold deTIndex serTIndex
  refine Rt.bind (rt_rd h.head) ?_
  refine Rt.bind (rt_rd h.exprs) ?_
  refine Rt.bind (rt_node ver ver' _ hv h.pred.1) ?_
  refine Rt.bind (rt_string _ h.predStr) ?_
  refine Rt.bind (rt_node ver ver' _ hv h.expr.1) ?_
  have hs : (slice x.head L.xSpc 4).length = 4 := by
    have := h.head; have := hL.x
    simp only [slice, List.length_take, List.length_drop]; omega
  refine Rt.bind (rt_rd hs) ?_
  refine Rt.bind (rt_excl _ _ _ h.excl) ?_
  refine Rt.last (rt_rd rfl) ?_
  rw [patch_self _ _ _ (by have := h.head; have := hL.x; omega)]
  unfold tgot
  by_cases hc : ver / 10000 = ver' / 10000
  · simp only [if_pos hc]; exact Rt.ret _
  · simp only [if_neg hc]; exact Rt.ret _

theorem rt_tindices (L : Lay) (hL : L.Ok) (ver ver' : Nat) (hv : ver < 2 ^ 32) :
    ∀ xs : List TIndex, (∀ x ∈ xs, x.Ok L) →
      Rt (deTIndices L ver' xs.length) (serTIndices L ver xs)
        (xs.map (fun x => (tgot ver ver' x).1), xs.any (fun x => (tgot ver ver' x).2))
  | [], _ => Rt.ret _
  | x :: xs, h => by
    refine Rt.bind (rt_tindex L hL ver ver' hv x (h x List.mem_cons_self)) ?_
    refine Rt.last (rt_tindices L hL ver ver' hv xs (fun y hy => h y (List.mem_cons_of_mem _ hy))) ?_
    exact Rt.ret _

theorem rt_datum (byval : Bool) (m : Missing) (h : MissOk byval m) :
    Rt deDatum (serDatum byval (if m.present = 0 then .null else m.value)) m.value := by
  unfold MissOk at h
  by_cases hp : m.present = 0
  · rw [if_pos hp] at h ⊢
    rw [h]
    show Rt deDatum (le 4 0xFFFFFFFE) .null
    unfold deDatum
    refine Rt.last (rt_rd (le_length 4 _)) ?_
    rw [if_pos (by decide)]
    exact Rt.ret _
  · rw [if_neg hp] at h ⊢
    unfold deDatum
    cases hm : m.value with
    | null => rw [hm] at h; exact h.elim
    | val b =>
      rw [hm] at h
      obtain ⟨h1, h2⟩ := h
      subst h1
      refine Rt.bind (rt_rd (le_length 4 _)) ?_
      rw [if_neg (by decide), if_pos (by decide)]
      exact Rt.last (rt_rd h2) (Rt.ret _)
    | ref b =>
      rw [hm] at h
      obtain ⟨h1, h2⟩ := h
      subst h1
      have e : unle (le 4 b.length) = b.length := unle_le 4 _ (by omega)
      refine Rt.bind (rt_rd (le_length 4 _)) ?_
      rw [e, if_neg (by omega), if_neg (by omega), if_neg (by omega)]
      exact Rt.last (rt_rd rfl) (Rt.ret _)

theorem rt_missings (L : Lay) (fields : Bytes) : ∀ (ms : List Missing) (i : Nat),
    (∀ j m, ms[j]? = some m → MissOk (byvalOf L fields (i + j)) m) →
    Rt (deMissings ms.length) (serMissings L fields i ms) ms
  | [], _, _ => Rt.ret _
  | m :: ms, i, h => by
    have h0 := h 0 m rfl
    have hs : ∀ j k, ms[j]? = some k → MissOk (byvalOf L fields (i + 1 + j)) k := by
      intro j k hk
      have := h (j + 1) k hk
      rwa [show i + (j + 1) = i + 1 + j from by omega] at this
    unfold serMissings serMissing
    rw [List.append_assoc]
    refine Rt.bind (rt_rd rfl) ?_
    refine Rt.bind (rt_datum _ m h0) ?_
    exact Rt.last (rt_missings L fields ms (i + 1) hs) (Rt.ret _)

/-- What reading a table gives. -/
def got (ver ver' : Nat) (t : Table) : Table × Bool :=
  ({ t with indices := t.indices.map (fun x => (tgot ver ver' x).1) },
    t.indices.any (fun x => (tgot ver ver' x).2))

theorem got_same {ver ver' : Nat} (h : ver / 10000 = ver' / 10000) (t : Table) : got ver ver' t = (t, false) := by
  unfold got tgot
  simp only [if_pos h, List.map_id', List.any_eq_false.2 (fun x _ => Bool.false_ne_true)]

theorem got_other {L : Lay} {ver ver' : Nat} (h : ver / 10000 ≠ ver' / 10000) (t : Table) (ht : t.Ok L) :
    (got ver ver' t).1 = t.bare ∧ ((got ver ver' t).2 = true ↔ t.HasNodes) := by
  unfold got tgot
  simp only [if_neg h]
  refine ⟨rfl, ?_⟩
  rw [List.any_eq_true]
  constructor
  · rintro ⟨x, hx, hb⟩
    refine ⟨x, hx, ?_⟩
    rw [Bool.or_eq_true, notEmpty_iff (ht.indices x hx).pred.2, notEmpty_iff (ht.indices x hx).expr.2] at hb
    exact hb
  · rintro ⟨x, hx, hb⟩
    refine ⟨x, hx, ?_⟩
    rw [Bool.or_eq_true, notEmpty_iff (ht.indices x hx).pred.2, notEmpty_iff (ht.indices x hx).expr.2]
    exact hb

theorem rt_table (L : Lay) (hL : L.Ok) (ver ver' : Nat) (hv : ver < 2 ^ 32) (t : Table) (h : t.Ok L)
    (data : Bytes) (hd : serTable L ver t = some data) : Rt (deTableBody L ver') data (got ver ver' t) := by
  unfold serTable at hd
  rw [if_neg (by rw [h.version]; exact fun hh => hh rfl)] at hd
  injection hd with hd
  subst hd
  unfold deTableBody
  refine Rt.bind (rt_rd h.head) ?_
  rw [← h.nindices]
  refine Rt.bind (rt_tindices L hL ver ver' hv t.indices h.indices) ?_
  refine Rt.bind (rt_rd h.fields) ?_
  rw [← h.nmissing]
  refine Rt.bind (rt_missings L t.fields t.missing 0 (fun j m hm => by rw [Nat.zero_add]; exact h.missing j m hm)) ?_
  have hs : (slice t.head L.tSpc 4).length = 4 := by
    have := h.head; have := hL.t
    simp only [slice, List.length_take, List.length_drop]; omega
  refine Rt.last (rt_rd hs) ?_
  rw [patch_self _ _ _ (by have := h.head; have := hL.t; omega)]
  exact Rt.ret _

theorem deTable_of_rt {L : Lay} {ver' : Nat} {data : Bytes} {r : Table × Bool}
    (h : Rt (deTableBody L ver') data r) : deTable L ver' data = some r := by
  have := h []
  rw [List.append_nil] at this
  unfold deTable
  rw [this]

theorem serTable_some {L : Lay} (ver : Nat) {t : Table} (h : t.Ok L) : ∃ data, serTable L ver t = some data := by
  unfold serTable
  rw [if_neg (by rw [h.version]; exact fun hh => hh rfl)]
  exact ⟨_, rfl⟩

theorem bare_ok {L : Lay} {t : Table} (h : t.Ok L) : t.bare.Ok L := by
  have hn : TextOk nullNode ∧ nullNode ≠ [] := by decide
  refine ⟨h.version, h.head, ?_, ?_, h.fields, h.nmissing, h.missing⟩
  · show (t.indices.map TIndex.bare).length = _
    rw [List.length_map]; exact h.nindices
  · intro x hx
    obtain ⟨y, hy, e⟩ := List.mem_map.1 hx
    subst e
    have := h.indices y hy
    exact ⟨this.head, this.exprs, hn, this.predStr, hn, this.excl⟩

/-! ### Indexes -/

/-- What reading an index gives. -/
def igot (ver ver' : Nat) (x : Index) : Index × Bool :=
  if ver / 10000 = ver' / 10000 then (x, false)
  else (x.bare, !strIsEmpty x.predicate || !strIsEmpty x.expressions || !strIsEmpty x.duplicates)

/-- The record of an index after its first part. -/
def serIndexTail (ver : Nat) (x : Index) : Bytes :=
  x.leafTableFields ++ (x.leafFields ++ (serNode ver x.predicate ++
    (serString x.predicateStr ++ (serNode ver x.expressions ++ (serNode ver x.duplicates ++
      ((if x.key.type = exclusion then x.exclops else []) ++ [x.immediate]))))))

theorem rt_index (L : Lay) (ver ver' : Nat) (hv : ver < 2 ^ 32) (x : Index) (h : x.Ok L) :
    Rt (deIndexBody L ver' x.key x.head) (serIndexTail ver x)
      ({ (igot ver ver' x).1 with state := stateValid }, (igot ver ver' x).2) := by
  unfold deIndexBody serIndexTail
  refine Rt.bind (rt_rd h.ltf) ?_
  refine Rt.bind (rt_rd h.lf) ?_
  refine Rt.bind (rt_node ver ver' _ hv h.pred.1) ?_
  refine Rt.bind (rt_string _ h.predStr) ?_
  refine Rt.bind (rt_node ver ver' _ hv h.expr.1) ?_
  refine Rt.bind (rt_node ver ver' _ hv h.dup.1) ?_
  refine Rt.bind (rt_excl _ _ _ h.excl) ?_
  refine Rt.last (rt_rd rfl) ?_
  unfold igot
  by_cases hc : ver / 10000 = ver' / 10000
  · simp only [if_pos hc]; exact Rt.ret _
  · simp only [if_neg hc]; exact Rt.ret _

theorem igot_state (ver ver' : Nat) (x : Index) : (igot ver ver' x).1.state = x.state := by
  unfold igot
  by_cases hc : ver / 10000 = ver' / 10000
  · rw [if_pos hc]
  · rw [if_neg hc]; rfl

theorem igot_other {L : Lay} {ver ver' : Nat} (h : ver / 10000 ≠ ver' / 10000) (x : Index) (hx : x.Ok L) :
    (igot ver ver' x).1 = x.bare ∧ ((igot ver ver' x).2 = true ↔ x.HasNodes) := by
  unfold igot
  rw [if_neg h]
  refine ⟨rfl, ?_⟩
  show (_ || _) = true ↔ _
  rw [Bool.or_eq_true, Bool.or_eq_true, notEmpty_iff hx.pred.2, notEmpty_iff hx.expr.2, notEmpty_iff hx.dup.2,
    or_assoc]
  exact Iff.rfl

theorem serIndex_eq {L : Lay} {ver : Nat} {x : Index} (h : x.Ok L) :
    serIndex L ver x = some (x.head ++ (serIndexTail ver x ++ [x.state])) := by
  unfold serIndex serIndexBody
  rw [if_neg (by rw [h.version]; exact fun hh => hh rfl), List.append_assoc]
  rfl

/-- Reading an index whose data begins with its first part. -/
theorem deIndex_head {L : Lay} {ver' : Nat} {x : Index} (h : x.Ok L) (s : Bytes) :
    deIndex L ver' x.key (x.head ++ s) =
      match deIndexBody L ver' x.key x.head s with
      | some (r, []) => .ok r.1 r.2
      | some (r, [b]) => .ok { r.1 with state := b } r.2
      | _ => .truncated := by
  unfold deIndex
  rw [rt_rd h.head s]
  show (if unle (slice x.head L.oVersion 2) ≠ sysTreeVersion then Res.fatal else _) = _
  rw [if_neg (by rw [h.version]; exact fun hh => hh rfl)]
  rfl

end Verif.CatRecords
