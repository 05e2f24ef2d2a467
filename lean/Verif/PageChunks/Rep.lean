import Verif.PageChunks.Mem

/-! # Bytes of B-tree pages: how contents lie in memory -/

namespace Verif.PageChunks

/-! ## Sizes -/

theorem al_mod (n : Nat) : al n % 4 = 0 := by unfold al; omega

theorem al_le (n : Nat) : n ≤ al n := by unfold al; omega

theorem al_lt (n : Nat) : al n < n + 4 := by unfold al; omega

theorem al_of_mod {n : Nat} (h : n % 4 = 0) : al n = n := by unfold al; omega

theorem al_mono {a b : Nat} (h : a ≤ b) : al a ≤ al b := by unfold al; omega

theorem hdrLen_mod (n : Nat) : hdrLen n % 4 = 0 := al_mod _

theorem hdrLen_le (n : Nat) : descOff + 2 * n ≤ hdrLen n := al_le _

theorem hdrLen_mono {a b : Nat} (h : a ≤ b) : hdrLen a ≤ hdrLen b := al_mono (by omega)

theorem hdrLen_step (n : Nat) : hdrLen n ≤ hdrLen (n + 1) ∧ hdrLen (n + 1) ≤ hdrLen n + 4 := by
  unfold hdrLen al
  omega

/-- The length of the items. -/
def ilen (l : List Item) : Nat := (l.map (·.words.length)).sum

theorem ilen_nil : ilen [] = 0 := rfl

theorem ilen_cons (x l) : ilen (x :: l) = x.words.length + ilen l := rfl

theorem ilen_append (a b : List Item) : ilen (a ++ b) = ilen a + ilen b := by
  simp [ilen]

theorem csize_eq (c : Chunk) : csize c = al c.items.length + ilen c.items := rfl

theorem dsize_cons (c P) : dsize (c :: P) = csize c + dsize P := rfl

theorem dsize_append (P Q : List Chunk) : dsize (P ++ Q) = dsize P + dsize Q := by simp [dsize]

theorem ksize_cons (c P) : ksize (c :: P) = c.key.length + ksize P := rfl

theorem ksize_append (P Q : List Chunk) : ksize (P ++ Q) = ksize P + ksize Q := by simp [ksize]

theorem icount_cons (c P) : icount (c :: P) = c.items.length + icount P := rfl

theorem icount_append (P Q : List Chunk) : icount (P ++ Q) = icount P + icount Q := by simp [icount]

/-! ## Chunks in memory -/

/-- The items one after another. -/
def idata (l : List Item) : List Nat := (l.map (·.words)).flatten

theorem idata_cons (x l) : idata (x :: l) = x.words ++ idata l := rfl

theorem idata_append (a b : List Item) : idata (a ++ b) = idata a ++ idata b := by simp [idata]

theorem idata_length (l : List Item) : (idata l).length = ilen l := by
  induction l with
  | nil => rfl
  | cons x l ih => rw [idata_cons, List.length_append, ih, ilen_cons]

/-- An entry of an item array. -/
def word (off : Nat) (f : Bool) : Nat := 2 * off + if f then 16384 else 0

/-- The item array, the first item being at `off`. -/
def iarr : Nat → List Item → List Nat
  | _, [] => []
  | off, x :: l => word off x.flag :: iarr (off + x.words.length) l

theorem iarr_length (off l) : (iarr off l).length = l.length := by
  induction l generalizing off with
  | nil => rfl
  | cons x l ih => simp [iarr, ih]

theorem iarr_append (off : Nat) (a b : List Item) :
    iarr off (a ++ b) = iarr off a ++ iarr (off + ilen a) b := by
  induction a generalizing off with
  | nil => rfl
  | cons x a ih => simp only [List.cons_append, iarr, ih, ilen_cons, Nat.add_assoc]

/-- A chunk in memory. -/
def ChunkAt (m : Nat → Nat) (a : Nat) (l : List Item) : Prop :=
  At m a (iarr (al l.length) l) ∧ At m (a + al l.length) (idata l)

/-- Chunks in memory, from the address `a`. -/
def ChunksAt (m : Nat → Nat) : Nat → List Chunk → Prop
  | _, [] => True
  | a, c :: P => ChunkAt m a c.items ∧ ChunksAt m (a + csize c) P

theorem ChunksAt.append {m a P Q} : ChunksAt m a (P ++ Q) ↔ ChunksAt m a P ∧ ChunksAt m (a + dsize P) Q := by
  induction P generalizing a with
  | nil => simp [ChunksAt, dsize]
  | cons c P ih => simp only [List.cons_append, ChunksAt, ih, dsize_cons, and_assoc, Nat.add_assoc]

theorem ChunkAt.frame {m m' : Nat → Nat} {a a' l} (h : ChunkAt m a l)
    (e : ∀ i, i < al l.length + ilen l → m' (a' + i) = m (a + i)) : ChunkAt m' a' l := by
  refine ⟨h.1.frame fun i hi => e i ?_, h.2.frame fun i hi => ?_⟩
  · rw [iarr_length] at hi
    have := al_le l.length
    omega
  · rw [idata_length] at hi
    rw [Nat.add_assoc, Nat.add_assoc]
    exact e _ (by omega)

theorem ChunksAt.frame {m m' : Nat → Nat} {a a' P} (h : ChunksAt m a P)
    (e : ∀ i, i < dsize P → m' (a' + i) = m (a + i)) : ChunksAt m' a' P := by
  induction P generalizing a a' with
  | nil => trivial
  | cons c P ih =>
    rw [dsize_cons] at e
    refine ⟨h.1.frame fun i hi => e i (by rw [csize_eq]; omega), ih h.2 fun i hi => ?_⟩
    rw [Nat.add_assoc, Nat.add_assoc]
    exact e _ (by omega)

theorem ChunksAt.same {m m' : Nat → Nat} {a P} (h : ChunksAt m a P)
    (e : ∀ x, a ≤ x → x < a + dsize P → m' x = m x) : ChunksAt m' a P :=
  h.frame fun i hi => e _ (by omega) (by omega)

/-! ## Descriptors in memory -/

/-- Descriptors of chunks, from number `i`: the chunks are at `pos`, the first item has number `off`,
the keys are at `hp`. -/
def DescsAt (m : Nat → Nat) : Nat → Nat → Nat → Nat → List Chunk → Prop
  | _, _, _, _, [] => True
  | i, pos, off, hp, c :: P => mdesc m i = ⟨pos / 2, off, hp / 2, c.fixed, c.kflags⟩ ∧
      DescsAt m (i + 1) (pos + csize c) (off + c.items.length) (hp + c.key.length) P

theorem DescsAt.append {m i pos off hp P Q} : DescsAt m i pos off hp (P ++ Q) ↔
    DescsAt m i pos off hp P ∧
      DescsAt m (i + P.length) (pos + dsize P) (off + icount P) (hp + ksize P) Q := by
  induction P generalizing i pos off hp with
  | nil => simp [DescsAt, dsize, icount, ksize]
  | cons c P ih =>
    simp only [List.cons_append, DescsAt, ih, dsize_cons, icount_cons, ksize_cons, and_assoc, Nat.add_assoc,
      List.length_cons]
    rw [Nat.add_comm 1 P.length]

/-- Sizes of chunks and keys are multiples of 4. -/
def Aligned (P : List Chunk) : Prop :=
  ∀ c ∈ P, (∀ it ∈ c.items, it.ok) ∧ c.key.length % 4 = 0 ∧ c.kflags < 4

theorem ilen_mod {l : List Item} (h : ∀ it ∈ l, it.ok) : ilen l % 4 = 0 := by
  induction l with
  | nil => rfl
  | cons x l ih =>
    rw [ilen_cons]
    have h1 := (h x (by simp)).1
    have h2 := ih fun it hi => h it (by simp [hi])
    omega

theorem ilen_ge {l : List Item} (h : ∀ it ∈ l, it.ok) : 4 * l.length ≤ ilen l := by
  induction l with
  | nil => simp
  | cons x l ih =>
    rw [ilen_cons, List.length_cons]
    have h1 := (h x (by simp)).2
    have h2 := ih fun it hi => h it (by simp [hi])
    omega

theorem csize_mod {c : Chunk} (h : ∀ it ∈ c.items, it.ok) : csize c % 4 = 0 := by
  have := ilen_mod h
  have := al_mod c.items.length
  rw [csize_eq]
  omega

theorem Aligned.tail {c P} (h : Aligned (c :: P)) : Aligned P := fun d hd => h d (by simp [hd])

theorem Aligned.append {P Q} : Aligned (P ++ Q) ↔ Aligned P ∧ Aligned Q := by
  constructor
  · exact fun h => ⟨fun c hc => h c (by simp [hc]), fun c hc => h c (by simp [hc])⟩
  · intro ⟨h1, h2⟩ c hc
    rcases List.mem_append.mp hc with h | h
    · exact h1 c h
    · exact h2 c h

theorem Aligned.cons {c P} : Aligned (c :: P) ↔
    ((∀ it ∈ c.items, it.ok) ∧ c.key.length % 4 = 0 ∧ c.kflags < 4) ∧ Aligned P := by
  constructor
  · exact fun h => ⟨h c (by simp), h.tail⟩
  · intro ⟨h1, h2⟩ d hd
    rcases List.mem_cons.mp hd with h | h
    · subst h; exact h1
    · exact h2 d h

theorem Aligned.dsize {P} (h : Aligned P) : dsize P % 4 = 0 := by
  induction P with
  | nil => rfl
  | cons c P ih =>
    have := csize_mod (h c (by simp)).1
    have := ih h.tail
    rw [dsize_cons]
    omega

theorem Aligned.ksize {P} (h : Aligned P) : ksize P % 4 = 0 := by
  induction P with
  | nil => rfl
  | cons c P ih =>
    have := (h c (by simp)).2.1
    have := ih h.tail
    rw [ksize_cons]
    omega

theorem Aligned.icount {P} (h : Aligned P) : 5 * icount P ≤ PageChunks.dsize P := by
  induction P with
  | nil => simp [PageChunks.icount]
  | cons c P ih =>
    have h1 := ilen_ge (h c (by simp)).1
    have h2 := ih h.tail
    have h3 := al_le c.items.length
    rw [dsize_cons, icount_cons, csize_eq]
    omega

/-- Descriptors that are moved and whose values are shifted. -/
theorem DescsAt.shift {m m' : Nat → Nat} {i i' pos pos' off off' hp hp' : Nat} {P : List Chunk}
    (h : DescsAt m i pos off hp P) (al : Aligned P) (hpos : pos % 4 = 0) (hhp : hp % 4 = 0)
    (hl : P ≠ [] → hp + ksize P.dropLast < 256)
    (H : ∀ j p o k fx fl, j < P.length → p % 4 = 0 → k % 4 = 0 → p ≤ dsize P → o ≤ icount P →
      hp + k < 256 → fl < 4 →
      mdesc m (i + j) = ⟨(pos + p) / 2, off + o, (hp + k) / 2, fx, fl⟩ →
      mdesc m' (i' + j) = ⟨(pos' + p) / 2, off' + o, (hp' + k) / 2, fx, fl⟩) :
    DescsAt m' i' pos' off' hp' P := by
  induction P generalizing i i' pos pos' off off' hp hp' with
  | nil => trivial
  | cons c P ih =>
    have hc := al c (by simp)
    have hk : hp < 256 := by
      have := hl (by simp)
      omega
    refine ⟨?_, ih h.2 al.tail ?_ ?_ ?_ ?_⟩
    · have := H 0 0 0 0 c.fixed c.kflags (by simp) rfl rfl (Nat.zero_le _) (Nat.zero_le _) hk hc.2.2
        (by simpa using h.1)
      simpa using this
    · have := csize_mod hc.1
      omega
    · omega
    · intro hP
      have := hl (by simp)
      rw [List.dropLast_cons_of_ne_nil hP, ksize_cons] at this
      omega
    · intro j p o k fx fl hj hp4 hk4 hpd hoc hk2 hfl hd
      have := H (j + 1) (csize c + p) (c.items.length + o) (c.key.length + k) fx fl (by simp; omega)
        (by have := csize_mod hc.1; omega) (by omega) (by rw [dsize_cons]; omega)
        (by rw [icount_cons]; omega) (by omega) hfl
        (by rw [← Nat.add_assoc pos, ← Nat.add_assoc off, ← Nat.add_assoc hp, ← hd]; congr 1; omega)
      rw [← Nat.add_assoc pos', ← Nat.add_assoc off', ← Nat.add_assoc hp'] at this
      rw [← this]
      congr 1
      omega

theorem DescsAt.same {m m' : Nat → Nat} {i pos off hp P} (h : DescsAt m i pos off hp P)
    (e : ∀ j, i ≤ j → j < i + P.length → mdesc m' j = mdesc m j) : DescsAt m' i pos off hp P := by
  induction P generalizing i pos off hp with
  | nil => trivial
  | cons c P ih =>
    rw [List.length_cons] at e
    exact ⟨by rw [e i (by omega) (by omega)]; exact h.1, ih h.2 fun j h1 h2 => e j (by omega) (by omega)⟩

/-! ## Keys in memory -/

/-- The keys one after another. -/
def kdata (P : List Chunk) : List Nat := (P.map (·.key)).flatten

theorem kdata_cons (c P) : kdata (c :: P) = c.key ++ kdata P := rfl

theorem kdata_append (P Q : List Chunk) : kdata (P ++ Q) = kdata P ++ kdata Q := by simp [kdata]

theorem kdata_length (P : List Chunk) : (kdata P).length = ksize P := by
  induction P with
  | nil => rfl
  | cons c P ih => rw [kdata_cons, List.length_append, ih, ksize_cons]

/-! ## Pages in memory -/

/-- The key of the last chunk. -/
def lastKey (P : List Chunk) : List Nat := (P.getLast?.getD .none).key

/-- Memory of a page holds contents. -/
structure Rep (s : Pg) (P : Page) : Prop where
  fine : s.bad = false
  leaf : s.leaf = P.leaf
  right : s.rightmost = P.right
  count : s.chunksCount = P.chunks.length
  some : P.chunks ≠ []
  items : s.itemsCount = icount P.chunks
  kend : s.hikeysEnd = hdrLen P.chunks.length + ksize P.chunks
  dend : s.dataSize = P.start + dsize P.chunks
  fit : P.start + dsize P.chunks ≤ 4096
  kfit : hdrLen P.chunks.length + ksize P.chunks ≤ P.start
  smod : P.start % 4 = 0
  slim : hikeysLimit P.leaf ≤ P.start
  aligned : Aligned P.chunks
  klast : hdrLen P.chunks.length + ksize P.chunks.dropLast < 256
  kright : P.right = false → 4 ≤ (lastKey P.chunks).length
  descs : DescsAt s.mem 0 P.start 0 (hdrLen P.chunks.length) P.chunks
  keys : At s.mem (hdrLen P.chunks.length) (kdata P.chunks)
  chunks : ChunksAt s.mem P.start P.chunks

theorem ksize_dropLast {P : List Chunk} (h : P ≠ []) : ksize P = ksize P.dropLast + (lastKey P).length := by
  have e := List.dropLast_concat_getLast h
  conv => lhs; rw [← e]
  rw [ksize_append]
  unfold lastKey
  rw [List.getLast?_eq_some_getLast h]
  simp [ksize]

theorem limit_ge (leaf : Bool) : 128 ≤ hikeysLimit leaf ∧ hikeysLimit leaf ≤ 256 ∧ hikeysLimit leaf % 4 = 0 := by
  cases leaf <;> simp [hikeysLimit]

/-- Where a chunk is. -/
structure ChunkSplit (P : Page) (c : Nat) (xs : List Chunk) (k : Chunk) (ys : List Chunk) : Prop where
  eq : P.chunks = xs ++ k :: ys
  len : xs.length = c

theorem chunkSplit {P : Page} {c : Nat} (h : c < P.chunks.length) :
    ∃ xs ys, ChunkSplit P c xs (P.chunk c) ys := by
  refine ⟨P.chunks.take c, P.chunks.drop (c + 1), ?_, ?_⟩
  · unfold Page.chunk
    rw [List.getD_eq_getElem?_getD, List.getElem?_eq_getElem h]
    simp
  · simp; omega

theorem List.modify_mid {α} (xs : List α) (a : α) (ys : List α) (f : α → α) :
    (xs ++ a :: ys).modify xs.length f = xs ++ f a :: ys := by
  induction xs with
  | nil => rfl
  | cons x xs ih => simp [List.modify_succ_cons, ih]

theorem ChunkSplit.upd {P c xs k ys} (h : ChunkSplit P c xs k ys) (f : Chunk → Chunk) :
    (P.upd c f).chunks = xs ++ f k :: ys := by
  unfold Page.upd
  rw [h.eq, ← h.len]
  exact List.modify_mid _ _ _ _

/-- The facts about a chunk of a page. -/
structure ChunkFacts (s : Pg) (P : Page) (xs : List Chunk) (k : Chunk) (ys : List Chunk) : Prop where
  desc : s.desc xs.length = ⟨(P.start + dsize xs) / 2, icount xs, (hdrLen P.chunks.length + ksize xs) / 2,
    k.fixed, k.kflags⟩
  fill : s.fill xs.length = ⟨xs.length, 0, k.items.length, csize k, P.start + dsize xs⟩
  amod : (P.start + dsize xs) % 4 = 0
  chunk : ChunkAt s.mem (P.start + dsize xs) k.items
  before : ChunksAt s.mem P.start xs
  after : ChunksAt s.mem (P.start + dsize xs + csize k) ys
  fit : P.start + dsize xs + csize k + dsize ys ≤ 4096
  dend : s.dataSize = P.start + dsize xs + csize k + dsize ys
  kok : (∀ it ∈ k.items, it.ok) ∧ k.key.length % 4 = 0 ∧ k.kflags < 4
  xok : Aligned xs
  yok : Aligned ys
  icnt : s.itemsCount = icount xs + k.items.length + icount ys
  cnt : s.chunksCount = xs.length + 1 + ys.length
  dxs : DescsAt s.mem 0 P.start 0 (hdrLen P.chunks.length) xs
  dys : DescsAt s.mem (xs.length + 1) (P.start + dsize xs + csize k) (icount xs + k.items.length)
    (hdrLen P.chunks.length + ksize xs + k.key.length) ys

theorem DescsAt.head {m i pos off hp c P} (h : DescsAt m i pos off hp (c :: P)) :
    mdesc m i = ⟨pos / 2, off, hp / 2, c.fixed, c.kflags⟩ := h.1

theorem Rep.facts {s P c xs k ys} (r : Rep s P) (h : ChunkSplit P c xs k ys) : ChunkFacts s P xs k ys := by
  have hd := r.descs
  have hc := r.chunks
  have ha := r.aligned
  have hf := r.fit
  have hde := r.dend
  rw [h.eq, dsize_append, dsize_cons] at hf hde
  rw [h.eq] at hc ha
  have hq : P.chunks.length = xs.length + 1 + ys.length := by rw [h.eq]; simp; omega
  obtain ⟨hl, hhl⟩ : ∃ x, x = hdrLen P.chunks.length := ⟨_, rfl⟩
  rw [← hhl, h.eq, DescsAt.append, Nat.zero_add, Nat.zero_add] at hd
  rw [ChunksAt.append] at hc
  rw [Aligned.append, Aligned.cons] at ha
  obtain ⟨dx, dk, dy⟩ := hd
  obtain ⟨cx, ck, cy⟩ := hc
  obtain ⟨ax, ak, ay⟩ := ha
  have e1 : s.desc xs.length = ⟨(P.start + dsize xs) / 2, icount xs, (hl + ksize xs) / 2, k.fixed, k.kflags⟩ := dk
  have e2 : (P.start + dsize xs) % 4 = 0 := by
    have := r.smod
    have := ax.dsize
    omega
  have e3 := csize_mod ak.1
  have hi := r.items
  rw [h.eq, icount_append, icount_cons] at hi
  have hcount := r.count
  rw [hq] at hcount
  have key : s.fill xs.length = ⟨xs.length, 0, k.items.length, csize k, P.start + dsize xs⟩ := by
    unfold Pg.fill
    cases ys with
    | nil =>
      rw [if_neg (by simp at hcount; omega), e1]
      have hi' : icount ([] : List Chunk) = 0 := rfl
      have hd' : dsize ([] : List Chunk) = 0 := rfl
      simp only [Loc.mk.injEq, true_and]
      omega
    | cons d ys =>
      have e4 : s.desc (xs.length + 1) = _ := dy.head
      rw [if_pos (by simp at hcount; omega), e1, e4]
      simp only [Loc.mk.injEq, true_and]
      omega
  rw [hhl] at *
  exact ⟨e1, key, e2, ck, cx, cy, by omega, by omega, ak, ax, ay, by omega, by omega, dx, dy⟩

end Verif.PageChunks
