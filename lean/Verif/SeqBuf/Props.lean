import Verif.SeqBuf.Model

namespace Verif.SeqBuf

/-! ## Writer -/

/-- What may be asked of a writer: items of one size `d`; pages of `C` bytes. -/
def WMove.ok (C d : Nat) : WMove → Prop
  | .write data => data.length = d
  | .finish => True
  | .evict p0 p1 => p0.length = C ∧ p1.length = C

structure WInv (C d skip : Nat) (w : W) (S : Bytes) : Prop where
  len : S.length = w.evict + C * w.fpn + w.loc
  loc : w.loc ≤ C
  dvd : d ∣ w.loc
  curLen : w.cur.length = C
  otherLen : w.other.length = C
  cur : w.cur.take w.loc = S.drop (w.evict + C * w.fpn)
  prog : w.inprog = true → 0 < w.fpn ∧ w.other = (S.drop (w.evict + C * (w.fpn - 1))).take C ∧
    w.file = S.take (w.evict + C * (w.fpn - 1))
  done : w.inprog = false → w.file = S.take (w.evict + C * w.fpn)
  items : S.drop skip = w.log.flatten
  skipLe : skip ≤ S.length
  good : w.bad = false

theorem pwrite_end {f data : Bytes} {off : Nat} (h : f.length = off) :
    pwrite f off data = f ++ data := by
  subst h
  unfold pwrite
  rw [List.take_length, Nat.sub_self, List.drop_eq_nil_of_le (by omega)]
  simp

theorem splice_take {p data : Bytes} {loc : Nat} (h : loc ≤ p.length) :
    (splice p loc data).take (loc + data.length) = p.take loc ++ data := by
  unfold splice
  rw [List.take_append_of_le_length (by simp; omega)]
  rw [List.take_of_length_le (by simp; omega)]

theorem splice_length {p data : Bytes} {loc : Nat} (h : loc + data.length ≤ p.length) :
    (splice p loc data).length = p.length := by
  unfold splice; simp; omega

section
variable {C d skip : Nat}

theorem WInv.finish {w : W} {S : Bytes} (h : WInv C d skip w S) :
    WInv C d skip (w.finish C) S ∧ (w.finish C).inprog = false := by
  unfold W.finish
  by_cases hp : w.inprog = true
  · rw [if_pos hp]
    obtain ⟨h1, h2, h3⟩ := h.prog hp
    have hl : w.file.length = C * (w.fpn - 1) + w.evict := by
      have hC : C * w.fpn = C * (w.fpn - 1) + C := by
        rw [← Nat.mul_succ]; congr 1; omega
      have := h.len
      rw [h3, List.length_take]; omega
    refine ⟨⟨h.len, h.loc, h.dvd, h.curLen, h.otherLen, h.cur, by simp, ?_, h.items, h.skipLe,
      h.good⟩, rfl⟩
    intro _
    dsimp only
    rw [pwrite_end hl, h2, h3]
    have hC : w.evict + C * w.fpn = w.evict + C * (w.fpn - 1) + C := by
      have : C * w.fpn = C * (w.fpn - 1) + C := by
        rw [← Nat.mul_succ]; congr 1; omega
      omega
    rw [hC, List.take_add (i := w.evict + C * (w.fpn - 1)) (j := C)]
  · rw [if_neg hp]
    exact ⟨h, by simpa using hp⟩

theorem WInv.write {w : W} {S data : Bytes} (h : WInv C d skip w S) (hd : data.length = d)
    (hpos : 0 < d) (hC : d ∣ C) : ∃ S', WInv C d skip (w.write C data) S' := by
  unfold W.write
  by_cases hfit : w.loc + data.length ≤ C
  · rw [if_pos hfit]
    have hS := h.len
    refine ⟨S ++ data, ?_⟩
    constructor <;> (try dsimp only)
    · simp; omega
    · exact hfit
    · rw [hd]; exact (Nat.dvd_add_right h.dvd).2 (Nat.dvd_refl d)
    · rw [splice_length (by rw [h.curLen]; omega), h.curLen]
    · exact h.otherLen
    · rw [splice_take (by rw [h.curLen]; omega), h.cur, List.drop_append_of_le_length (by omega)]
    · intro hp
      obtain ⟨h1, h2, h3⟩ := h.prog hp
      have hm : C * w.fpn = C * (w.fpn - 1) + C := by
        rw [← Nat.mul_succ]; congr 1; omega
      refine ⟨h1, ?_, ?_⟩
      · rw [List.drop_append_of_le_length (by omega), List.take_append_of_le_length (by
          rw [List.length_drop]; omega)]
        exact h2
      · rw [List.take_append_of_le_length (by omega)]; exact h3
    · intro hp
      rw [List.take_append_of_le_length (by omega)]
      exact h.done hp
    · rw [List.drop_append_of_le_length h.skipLe, h.items]; simp
    · have := h.skipLe; simp; omega
    · exact h.good
  · rw [if_neg hfit]
    by_cases hp : w.inprog = true
    · rw [if_pos hp]; exact ⟨S, h⟩
    · rw [if_neg hp]
      have hloc : w.loc = C := by
        obtain ⟨a, ha⟩ := h.dvd
        obtain ⟨b, hb⟩ := hC
        have hle := h.loc
        rw [hd] at hfit
        rw [ha, hb] at hle hfit ⊢
        have h1 : a ≤ b := Nat.le_of_mul_le_mul_left hle hpos
        have h2 : b < a + 1 := by
          apply Decidable.byContradiction
          intro hc
          have : d * (a + 1) ≤ d * b := Nat.mul_le_mul_left d (by omega)
          rw [Nat.mul_succ] at this
          omega
        have : a = b := by omega
        rw [this]
      have hS := h.len
      refine ⟨S, ?_⟩
      constructor <;> (try dsimp only)
      · rw [Nat.mul_succ]; omega
      · omega
      · exact Nat.dvd_zero d
      · exact h.otherLen
      · exact h.curLen
      · rw [List.take_zero, List.drop_eq_nil_of_le (by rw [Nat.mul_succ]; omega)]
      · intro _
        refine ⟨by omega, ?_, ?_⟩
        · rw [Nat.add_sub_cancel, ← h.cur, hloc, List.take_take, Nat.min_self,
            List.take_of_length_le (by rw [h.curLen]; omega)]
        · rw [Nat.add_sub_cancel]; exact h.done (by simpa using hp)
      · intro hc; cases hc
      · exact h.items
      · exact h.skipLe
      · rw [h.good, hloc]; simp

theorem WInv.finalize {w : W} {S : Bytes} (h : WInv C d skip w S) :
    w.finalize C = (S, S.length) := by
  obtain ⟨h1, h2⟩ := h.finish
  have hS := h1.len
  have hf := h1.done h2
  have hl : (w.finish C).file.length = C * (w.finish C).fpn + (w.finish C).evict := by
    rw [hf, List.length_take]; omega
  unfold W.finalize
  dsimp only
  rw [pwrite_end hl, h1.cur, hf, List.take_append_drop]
  congr 1
  omega

theorem WInv.step {w : W} {S : Bytes} (h : WInv C d skip w S) (hpos : 0 < d) (hC : d ∣ C)
    {m : WMove} (hm : m.ok C d) : ∃ S', WInv C d skip (w.step C skip m) S' := by
  cases m with
  | write data => exact h.write hm hpos hC
  | finish => exact ⟨S, h.finish.1⟩
  | evict p0 p1 =>
    have hlog : (w.finish C).log = w.log := by unfold W.finish; split <;> rfl
    refine ⟨S, ?_⟩
    unfold W.step
    dsimp only
    rw [h.finalize]
    constructor <;> (try simp only [W.init, Option.isSome_some, if_true, Option.getD_some,
      Nat.mul_zero, Nat.add_zero])
    · omega
    · exact Nat.dvd_zero d
    · exact hm.1
    · exact hm.2
    · simp
    · intro hc; cases hc
    · intro _; simp
    · exact h.items
    · exact h.skipLe
    · exact h.good

theorem WInv.run {w : W} {S : Bytes} (h : WInv C d skip w S) (hpos : 0 < d) (hC : d ∣ C)
    {ms : List WMove} (hm : ∀ m ∈ ms, m.ok C d) : ∃ S', WInv C d skip (w.run C skip ms) S' := by
  unfold W.run
  induction ms generalizing w S with
  | nil => exact ⟨S, h⟩
  | cons m ms ih =>
    obtain ⟨S', h'⟩ := h.step hpos hC (hm m (by simp))
    exact ih h' (fun m hm' => hm m (by simp [hm']))

theorem WInv.init {p0 p1 : Bytes} (h0 : p0.length = C) (h1 : p1.length = C) (hs : skip ≤ C)
    (hd : d ∣ skip) : WInv C d skip (W.init skip none p0 p1 [] [] false) (p0.take skip) := by
  constructor <;> simp [W.init] <;> omega

/-- **C09**, writing: whatever processes append items of one size, in whatever
order pages are switched and written and however often the tree is evicted and
reloaded meanwhile, the finished file is the reserved header space followed by
exactly the items appended, in order, and the returned length is its size. -/
theorem C09_written (p0 p1 : Bytes) (ms : List WMove) (hpos : 0 < d) (hC : d ∣ C) (hs : d ∣ skip)
    (hle : skip ≤ C) (h0 : p0.length = C) (h1 : p1.length = C) (hm : ∀ m ∈ ms, m.ok C d) :
    let w := (W.init skip none p0 p1 [] [] false).run C skip ms
    w.bad = false ∧ ∃ hdr : Bytes, hdr.length = skip ∧
      w.finalize C = (hdr ++ w.log.flatten, skip + w.log.flatten.length) := by
  intro w
  obtain ⟨S, h⟩ := (WInv.init h0 h1 hle hs : WInv C d skip _ _).run hpos hC hm
  refine ⟨h.good, S.take skip, ?_, ?_⟩
  · have := h.skipLe
    rw [List.length_take]; omega
  · rw [h.finalize, ← h.items, List.take_append_drop]
    have := h.skipLe
    congr 1
    rw [List.length_drop]; omega

end

/-- An append is never dropped: it is either recorded at the end of the log or
the page was switched (or is being switched) and the loop tries again. -/
theorem C09_append (C : Nat) (w : W) (data : Bytes) (h : w.loc + data.length ≤ C) :
    (w.write C data).log = w.log ++ [data] := by
  simp [W.write, h]

/-- The loop of `seq_buf_rw` gets its item in: a process that finds the page full
succeeds after the pending page write (its own or another's) completes. -/
theorem C09_append_progress (C : Nat) (w : W) (data : Bytes) (hd : data.length ≤ C)
    (hfull : ¬ w.loc + data.length ≤ C) :
    (((w.finish C).write C data).write C data).log = w.log ++ [data] ∧
    (w.write C data).log = w.log := by
  unfold W.finish
  by_cases hp : w.inprog = true <;> simp [W.write, hfull, hp, hd]

/-! ## Reader -/

/-- What may be asked of a reader of a file with `n` items: reading an item only
while some are left (callers take one off `numFreeBlocks` first,
src/btree/io.c:1056-1075); eviction only past the start of the file. -/
def RMove.ok (C n : Nat) (r : R) : RMove → Prop
  | .read => r.out.length < n
  | .finish => True
  | .evict p0 p1 => p0.length = C ∧ p1.length = C ∧ 0 < (r.finalize C).1

/-- Every move of the list is admissible where it is made. -/
def okRun (C d skip n : Nat) (r : R) : List RMove → Prop
  | [] => True
  | m :: ms => m.ok C n r ∧ okRun C d skip n (r.step C d skip m) ms

/-- `b` agrees with the bytes of `F` from position `o`, as far as `F` goes. -/
def Agrees (F : Bytes) (o : Nat) (b : Bytes) : Prop :=
  ∀ i, i < b.length → o + i < F.length → b[i]? = F[o + i]?

structure RInv (C d : Nat) (F : Bytes) (n skip : Nat) (r : R) : Prop where
  file : r.file = F
  pos : r.evict + C * r.fpn + r.loc = skip + d * r.out.length
  count : r.out.length ≤ n
  loc : r.loc ≤ C
  dvd : d ∣ r.loc
  curLen : r.cur.length = C
  otherLen : r.other.length = C
  cur : Agrees F (r.evict + C * r.fpn) r.cur
  prog : r.inprog = true → r.free = F.length - (r.evict + C * (r.fpn + 1))
  done : r.inprog = false → r.free = F.length - (r.evict + C * (r.fpn + 2)) ∧
    Agrees F (r.evict + C * (r.fpn + 1)) r.other
  items : ∀ k, k < r.out.length → r.out[k]? = some ((F.drop (skip + d * k)).take d)
  good : r.bad = false

theorem toInt32_small {n : Nat} (h : n < 2 ^ 31) : toInt32 n = n := by
  unfold toInt32
  rw [Nat.mod_eq_of_lt (by omega), if_pos (by omega)]

theorem padded_length {C : Nat} {b : Bytes} (h : b.length ≤ C) : (padded C b).length = C := by
  unfold padded; simp; omega

theorem agrees_padded {C e n : Nat} {F : Bytes} (h : F.length ≤ e + n ∨ C ≤ n) :
    Agrees F e (padded C (pread F e (min n C))) := by
  intro i hi hl
  unfold padded pread at *
  have hi' : i < C := by
    simp at hi; omega
  have : i < min n C := by omega
  rw [List.getElem?_append_left (by simp; omega), List.getElem?_take_of_lt this,
    List.getElem?_drop]

theorem agrees_beyond {F : Bytes} {o : Nat} {b : Bytes} (h : F.length ≤ o) : Agrees F o b := by
  intro i _ hl; omega

theorem readPages_spec {C skip e : Nat} {F p0 p1 : Bytes} (hF : F.length < 2 ^ 31)
    (he : e ≤ F.length) (hs : skip ≤ F.length) (h0 : p0.length = C) (h1 : p1.length = C) :
    ∃ c o fr, readPages C skip e F p0 p1 = some (c, o, fr) ∧ c.length = C ∧ o.length = C ∧
      Agrees F e c ∧ Agrees F (e + C) o ∧ fr = F.length - (e + C * 2) := by
  unfold readPages
  dsimp only
  rw [toInt32_small hF, if_neg (by omega), if_neg (by omega)]
  by_cases hz : ((F.length : Int) = 0 ∧ skip = 0)
  · rw [if_pos hz]
    exact ⟨p0, p1, 0, rfl, h0, h1, agrees_beyond (by omega), agrees_beyond (by omega), by omega⟩
  · rw [if_neg hz]
    by_cases hz2 : ((F.length : Int) - e = 0 ∧ skip = 0)
    · rw [if_pos hz2]
      exact ⟨p0, p1, 0, rfl, h0, h1, agrees_beyond (by omega), agrees_beyond (by omega), by omega⟩
    · rw [if_neg hz2]
      have hn : ((F.length : Int) - e).toNat = F.length - e := by omega
      rw [hn]
      have hb0 : (pread F e (min (F.length - e) C)).length = min (F.length - e) C := by
        unfold pread; simp only [List.length_take, List.length_drop]; omega
      rw [if_neg (by simp [hb0])]
      by_cases hbig : F.length - e > C
      · rw [if_pos hbig]
        have hm : min (F.length - e) C = C := by omega
        have hb1 : (pread F (e + min (F.length - e) C) (min (F.length - e - C) C)).length =
            min (F.length - e - C) C := by
          unfold pread; simp only [List.length_take, List.length_drop]; omega
        rw [if_neg (by simp [hb1])]
        refine ⟨_, _, _, rfl, padded_length (by omega), padded_length (by omega),
          agrees_padded (by omega), ?_, by omega⟩
        rw [hm]
        exact agrees_padded (by omega)
      · rw [if_neg hbig]
        exact ⟨_, _, _, rfl, padded_length (by omega), padded_length (by simp),
          agrees_padded (by omega), agrees_beyond (by omega), by omega⟩

section
variable {C d skip n : Nat} {F : Bytes}

theorem RInv.init {p0 p1 : Bytes} (hF : F.length < 2 ^ 31) (hlen : skip + d * n ≤ F.length)
    (h0 : p0.length = C) (h1 : p1.length = C) (hs : d ∣ skip) (hle : skip ≤ C) :
    RInv C d F n skip (R.init C skip none p0 p1 F [] false) := by
  obtain ⟨c, o, fr, he, hc, ho, ha, hb, hf⟩ := readPages_spec (skip := skip) (e := 0) hF (by omega)
    (by omega) h0 h1
  unfold R.init
  simp only [Option.getD_none]
  rw [he]
  constructor <;> (try dsimp only)
  · simp
  · simp
  · simpa using hle
  · simpa using hs
  · exact hc
  · exact ho
  · simpa using ha
  · intro h; cases h
  · intro _
    refine ⟨by simpa using hf, by simpa using hb⟩
  · intro k hk; simp at hk

theorem RInv.evict {r : R} (h : RInv C d F n skip r)
    (hF : F.length < 2 ^ 31) (hlen : skip + d * n ≤ F.length) {p0 p1 : Bytes}
    (h0 : p0.length = C) (h1 : p1.length = C) :
    RInv C d F n skip (R.init C skip (some (C * r.fpn + r.evict + r.loc)) p0 p1 F r.out r.bad) := by
  have hpos := h.pos
  have hcnt : d * r.out.length ≤ d * n := Nat.mul_le_mul_left d h.count
  obtain ⟨c, o, fr, he, hc, ho, ha, hb, hf⟩ := readPages_spec (skip := skip)
    (e := C * r.fpn + r.evict + r.loc) hF (by omega) (by omega) h0 h1
  unfold R.init
  simp only [Option.getD_some]
  rw [he]
  constructor <;> (try dsimp only)
  · simp; omega
  · exact h.count
  · simp
  · simp
  · exact hc
  · exact ho
  · simpa using ha
  · intro h; cases h
  · intro _
    refine ⟨by simpa using hf, by simpa using hb⟩
  · exact h.items
  · exact h.good

theorem RInv.finish {r : R} (h : RInv C d F n skip r) (hCpos : 0 < C) :
    RInv C d F n skip (r.finish C) ∧ (r.finish C).inprog = false := by
  unfold R.finish
  by_cases hp : r.inprog = true
  · rw [if_pos hp]
    have hf := h.prog hp
    by_cases hfr : r.free > 0
    · rw [if_pos hfr]
      dsimp only
      have hoff : C * (r.fpn + 1) + r.evict = r.evict + C * (r.fpn + 1) := by omega
      have hb : (pread r.file (C * (r.fpn + 1) + r.evict) C).length = min C r.free := by
        rw [h.file]
        unfold pread
        simp only [List.length_take, List.length_drop]
        omega
      rw [if_neg (by omega)]
      refine ⟨?_, rfl⟩
      constructor <;> (try dsimp only)
      · exact h.file
      · exact h.pos
      · exact h.count
      · exact h.loc
      · exact h.dvd
      · exact h.curLen
      · exact padded_length (by omega)
      · exact h.cur
      · intro hc; cases hc
      · intro _
        have hm : C * (r.fpn + 2) = C * (r.fpn + 1) + C := by rw [← Nat.mul_succ]
        refine ⟨by omega, ?_⟩
        rw [h.file, hoff]
        have := agrees_padded (C := C) (e := r.evict + C * (r.fpn + 1)) (n := C) (F := F)
          (Or.inr (Nat.le_refl _))
        rwa [Nat.min_self] at this
      · exact h.items
      · exact h.good
    · rw [if_neg hfr]
      refine ⟨?_, rfl⟩
      constructor <;> (try dsimp only)
      · exact h.file
      · exact h.pos
      · exact h.count
      · exact h.loc
      · exact h.dvd
      · exact h.curLen
      · exact h.otherLen
      · exact h.cur
      · intro hc; cases hc
      · intro _
        have hm : C * (r.fpn + 2) = C * (r.fpn + 1) + C := by rw [← Nat.mul_succ]
        exact ⟨by omega, agrees_beyond (by omega)⟩
      · exact h.items
      · exact h.good
  · rw [if_neg hp]
    exact ⟨h, by simpa using hp⟩

theorem RInv.read {r : R} (h : RInv C d F n skip r) (hpos : 0 < d) (hC : d ∣ C)
    (hlen : skip + d * n ≤ F.length) (hn : r.out.length < n) :
    RInv C d F n skip (r.read C d) := by
  unfold R.read
  have hp := h.pos
  by_cases hfit : r.loc + d ≤ C
  · rw [if_pos hfit]
    constructor <;> (try dsimp only)
    · exact h.file
    · simp only [List.length_append, List.length_cons, List.length_nil, Nat.mul_succ]
      omega
    · simp; omega
    · exact hfit
    · exact (Nat.dvd_add_right h.dvd).2 (Nat.dvd_refl d)
    · exact h.curLen
    · exact h.otherLen
    · exact h.cur
    · exact h.prog
    · exact h.done
    · intro k hk
      rw [List.length_append] at hk
      simp only [List.length_cons, List.length_nil] at hk
      by_cases hlt : k < r.out.length
      · rw [List.getElem?_append_left hlt]
        exact h.items k hlt
      · have hke : k = r.out.length := by omega
        subst hke
        rw [List.getElem?_append_right (Nat.le_refl _), Nat.sub_self]
        simp only [List.getElem?_cons_zero]
        congr 1
        have hdn : d * (r.out.length + 1) ≤ d * n := Nat.mul_le_mul_left d hn
        rw [Nat.mul_succ] at hdn
        have hcl := h.curLen
        apply List.ext_getElem?
        intro i
        by_cases hi : i < d
        · rw [List.getElem?_take_of_lt hi, List.getElem?_take_of_lt hi, List.getElem?_drop,
            List.getElem?_drop]
          rw [h.cur (r.loc + i) (by omega) (by omega)]
          congr 1
          omega
        · rw [List.getElem?_eq_none (by simp; omega), List.getElem?_eq_none (by simp; omega)]
    · exact h.good
  · rw [if_neg hfit]
    by_cases hpr : r.inprog = true
    · rw [if_pos hpr]; exact h
    · rw [if_neg hpr]
      obtain ⟨hd1, hd2⟩ := h.done (by simpa using hpr)
      have hloc : r.loc = C := by
        obtain ⟨a, ha⟩ := h.dvd
        obtain ⟨b, hb⟩ := hC
        have hle := h.loc
        rw [ha, hb] at hle hfit ⊢
        have h1 : a ≤ b := Nat.le_of_mul_le_mul_left hle hpos
        have h2 : b < a + 1 := by
          apply Decidable.byContradiction
          intro hc
          have : d * (a + 1) ≤ d * b := Nat.mul_le_mul_left d (by omega)
          rw [Nat.mul_succ] at this
          omega
        have : a = b := by omega
        rw [this]
      constructor <;> (try dsimp only)
      · exact h.file
      · rw [Nat.mul_succ]; omega
      · exact h.count
      · omega
      · exact Nat.dvd_zero d
      · exact h.otherLen
      · exact h.curLen
      · exact hd2
      · intro _; exact hd1
      · intro hc; cases hc
      · exact h.items
      · rw [h.good, hloc]; simp

theorem RInv.run {r : R} (h : RInv C d F n skip r) (hpos : 0 < d) (hC : d ∣ C) (hCpos : 0 < C)
    (hF : F.length < 2 ^ 31) (hlen : skip + d * n ≤ F.length) {ms : List RMove}
    (hm : okRun C d skip n r ms) : RInv C d F n skip (r.run C d skip ms) := by
  unfold R.run
  induction ms generalizing r with
  | nil => exact h
  | cons m ms ih =>
    obtain ⟨h1, h2⟩ := hm
    refine ih ?_ h2
    cases m with
    | read => exact h.read hpos hC hlen h1
    | finish => exact (h.finish hCpos).1
    | evict p0 p1 =>
      obtain ⟨a, b, c⟩ := h1
      have hf1 := (h.finish hCpos).1
      unfold R.step R.finalize at *
      dsimp only at c ⊢
      rw [if_neg (by omega), hf1.file]
      have hout : (r.finish C).out = r.out := by
        unfold R.finish; split
        · split
          · dsimp only; split <;> rfl
          · rfl
        · rfl
      have := hf1.evict hF hlen a b
      rwa [hout] at this

end

/-- All items of a list have size `d`. -/
def AllSize (d : Nat) (items : List Bytes) : Prop := ∀ x ∈ items, x.length = d

theorem flatten_length {d : Nat} {items : List Bytes} (h : AllSize d items) :
    items.flatten.length = d * items.length := by
  induction items with
  | nil => rfl
  | cons x xs ih =>
    rw [List.flatten_cons, List.length_append, ih (fun y hy => h y (by simp [hy])),
      h x (by simp), List.length_cons, Nat.mul_succ]
    omega

theorem flatten_item {d : Nat} {items : List Bytes} (h : AllSize d items) (k : Nat)
    (hk : k < items.length) : (items.flatten.drop (d * k)).take d = items[k] := by
  induction items generalizing k with
  | nil => simp at hk
  | cons x xs ih =>
    have hx := h x (by simp)
    have hxs : AllSize d xs := fun y hy => h y (by simp [hy])
    cases k with
    | zero => simp [← hx]
    | succ k =>
      rw [List.flatten_cons, Nat.mul_succ, Nat.add_comm, ← List.drop_drop, ← hx, List.drop_left, hx]
      simpa using ih hxs k (by simpa using hk)

/-- Full claim for reading: the items come back whatever the length of the file. -/
def C09_claim (sizeOk : Nat → Prop) : Prop :=
  ∀ (C d skip : Nat) (hdr : Bytes) (items : List Bytes) (p0 p1 : Bytes) (ms : List RMove),
    0 < d → d ∣ C → 0 < C → d ∣ skip → skip ≤ C → hdr.length = skip → AllSize d items →
    p0.length = C → p1.length = C → sizeOk (hdr ++ items.flatten).length →
    let r0 := R.init C skip none p0 p1 (hdr ++ items.flatten) [] false
    okRun C d skip items.length r0 ms →
    let r := r0.run C d skip ms
    r.bad = false ∧ r.out = items.take r.out.length ∧ r.out.length ≤ items.length

/-- **C09**, reading: any number of processes reading through page switches,
read-ahead and evictions of the tree obtain exactly the items of the file, in order
(for files below 2 GiB). -/
theorem C09_read_partial : C09_claim (· < 2 ^ 31) := by
  intro C d skip hdr items p0 p1 ms hpos hC hCpos hs hle hh hi h0 h1 hF r0 hm
  have hfl := flatten_length hi
  have hlen : skip + d * items.length ≤ (hdr ++ items.flatten).length := by
    rw [List.length_append, hfl, hh]; omega
  have hinv := (RInv.init (d := d) hF hlen h0 h1 hs hle : RInv C d _ _ skip _).run hpos hC hCpos hF
    hlen hm
  intro r
  refine ⟨hinv.good, ?_, hinv.count⟩
  apply List.ext_getElem?
  intro k
  by_cases hk : k < r.out.length
  · have hk2 : k < items.length := Nat.lt_of_lt_of_le hk hinv.count
    rw [hinv.items k hk, List.getElem?_take_of_lt hk, List.getElem?_eq_getElem hk2]
    congr 1
    rw [← List.drop_drop, ← hh, List.drop_left]
    exact flatten_item hi k hk2
  · rw [List.getElem?_eq_none (by omega), List.getElem?_eq_none (by simp; omega)]

theorem W.run_sizes {C d skip : Nat} {ms : List WMove} (hm : ∀ m ∈ ms, m.ok C d) {w : W}
    (h : AllSize d w.log) : AllSize d (w.run C skip ms).log := by
  unfold W.run
  induction ms generalizing w with
  | nil => exact h
  | cons m ms ih =>
    refine ih (fun m' hm' => hm m' (by simp [hm'])) ?_
    have h1 := hm m (by simp)
    cases m with
    | write data =>
      show AllSize d (w.write C data).log
      unfold W.write
      split
      · intro x hx
        rcases List.mem_append.1 hx with hx | hx
        · exact h x hx
        · rw [List.mem_singleton.1 hx]; exact h1
      · split <;> exact h
    | finish =>
      show AllSize d (w.finish C).log
      unfold W.finish
      split <;> exact h
    | evict p0 p1 => exact h

/-- **C09**, end to end: a file written item by item through the buffer by any
schedule of appends, page writes and evictions, finished, and then read item by item
by any schedule, gives back the items in order, and the reader that has taken as many
items as were written is at the end of the file. -/
theorem C09_end_to_end_partial (C d skip : Nat) (p0 p1 q0 q1 : Bytes) (ws : List WMove)
    (ms : List RMove) (hpos : 0 < d) (hC : d ∣ C) (hCpos : 0 < C) (hs : d ∣ skip) (hle : skip ≤ C)
    (h0 : p0.length = C) (h1 : p1.length = C) (g0 : q0.length = C) (g1 : q1.length = C)
    (hw : ∀ m ∈ ws, m.ok C d) :
    let w := (W.init skip none p0 p1 [] [] false).run C skip ws
    let f := (w.finalize C).1
    let r0 := R.init C skip none q0 q1 f [] false
    f.length < 2 ^ 31 → okRun C d skip w.log.length r0 ms →
    let r := r0.run C d skip ms
    r.bad = false ∧ r.out = w.log.take r.out.length ∧
      (r.out.length = w.log.length → r.out = w.log ∧ (r.finalize C).1 = f.length) := by
  intro w f r0 hF hm r
  obtain ⟨_, hdr, hh, hfin⟩ := C09_written (d := d) (skip := skip) p0 p1 ws hpos hC hs hle h0 h1 hw
  have hf : f = hdr ++ w.log.flatten := by rw [show f = (w.finalize C).1 from rfl, hfin]
  have hi : AllSize d w.log := W.run_sizes hw (by intro x hx; simp [W.init] at hx)
  have hfl := flatten_length hi
  have hlen : skip + d * w.log.length ≤ f.length := by
    rw [hf, List.length_append, hfl, hh]; omega
  have hinv : RInv C d f w.log.length skip r :=
    (RInv.init (d := d) hF hlen g0 g1 hs hle : RInv C d _ _ skip _).run hpos hC hCpos hF hlen hm
  have key := C09_read_partial C d skip hdr w.log q0 q1 ms hpos hC hCpos hs hle hh hi g0 g1
    (by rw [← hf]; exact hF) (by rw [← hf]; exact hm)
  rw [← hf] at key
  refine ⟨key.1, key.2.1, ?_⟩
  intro he
  have h2 : r.out = w.log.take r.out.length := key.2.1
  refine ⟨by rw [h2, he, List.take_length], ?_⟩
  have hp := (hinv.finish hCpos).1.pos
  have hout : (r.finish C).out = r.out := by
    unfold R.finish; split
    · split
      · dsimp only; split <;> rfl
      · rfl
    · rfl
  rw [hout, he] at hp
  have hl : f.length = skip + d * w.log.length := by rw [hf, List.length_append, hfl, hh]
  show C * (r.finish C).fpn + (r.finish C).evict + (r.finish C).loc = f.length
  omega

/-- A reader of a 3-page file (page size 8, items of 4) with an eviction in the
middle of a page and out-of-order I/O completion. -/
example :
    let items : List Bytes := [[1, 1, 1, 1], [2, 2, 2, 2], [3, 3, 3, 3], [4, 4, 4, 4], [5, 5, 5, 5]]
    let r0 := R.init 8 4 none (List.replicate 8 0) (List.replicate 8 0)
      ([9, 9, 9, 9] ++ items.flatten) [] false
    let ms : List RMove := [.read, .read, .read, .finish,
      .evict (List.replicate 8 7) (List.replicate 8 7), .read, .read, .read, .read, .finish]
    okRun 8 4 4 5 r0 ms ∧ (r0.run 8 4 4 ms).out = items := by
  constructor
  · simp only [okRun, RMove.ok]; decide
  · decide

/-- The same items written with page switches and an eviction. -/
example :
    let z : Bytes := List.replicate 8 9
    let w := (W.init 4 none z z [] [] false).run 8 4 [.write [1, 1, 1, 1], .write [2, 2, 2, 2],
      .write [2, 2, 2, 2], .finish, .write [3, 3, 3, 3], .evict z z, .write [4, 4, 4, 4],
      .write [5, 5, 5, 5]]
    (w.finalize 8).1 = [9, 9, 9, 9, 1, 1, 1, 1, 2, 2, 2, 2, 3, 3, 3, 3, 4, 4, 4, 4, 5, 5, 5, 5] := by
  decide

/-- **C09 is false for files of 2 GiB and more**: `seq_buf_read_pages` keeps the
file size in an `int`, which becomes negative, and opening the file panics. -/
theorem C09_violated : ¬ C09_claim (fun _ => True) := by
  intro h
  have hex : ∀ n : Nat, ∃ items : List Bytes, AllSize 4 items ∧ items.length = n := fun n =>
    ⟨List.replicate n [0, 0, 0, 0], fun x hx => by rw [(List.mem_replicate.1 hx).2]; rfl,
      List.length_replicate⟩
  obtain ⟨items, hl, hn⟩ := hex 536870912
  have := (h 8 4 0 [] items (List.replicate 8 0) (List.replicate 8 0)
    [] (by decide) (by decide) (by decide) (by decide) (by decide) rfl hl rfl rfl True.intro True.intro).1
  have hlen : ([] ++ items.flatten).length = 2147483648 := by
    rw [List.nil_append, flatten_length hl, hn]
  have hbad : ∀ F : Bytes, F.length = 2147483648 →
      (R.run 8 4 0 (R.init 8 0 none (List.replicate 8 0) (List.replicate 8 0) F [] false) []).bad =
        true := by
    intro F hF
    have h32 : toInt32 2147483648 = -2147483648 := by unfold toInt32; omega
    have : readPages 8 0 0 F (List.replicate 8 0) (List.replicate 8 0) = none := by
      unfold readPages
      rw [hF, h32]
      simp
    unfold R.run R.init
    simp only [Option.getD_none, this, List.foldl_nil]
  rw [hbad _ hlen] at this
  cases this

/-- Evicting a tree whose free-block file was opened but not read from yet removes
the file: `seq_buf_finalize` removes it whenever the offset is 0, also when reading
(src/utils/seq_buf.c:540-541).  Hence the restriction on `evict` in `RMove.ok`. -/
theorem C09_evict_at_start_loses_items :
    let r0 := R.init 8 0 none (List.replicate 8 0) (List.replicate 8 0) [1, 1, 1, 1] [] false
    (r0.step 8 4 0 (.evict (List.replicate 8 0) (List.replicate 8 0))).file = [] := by decide

end Verif.SeqBuf
