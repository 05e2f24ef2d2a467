import Verif.S3Backup.Pack

/-! # Proofs about packs -/

namespace Verif.S3Backup

theorem writeAt_end {f : Bytes} {off : Nat} {b : Bytes} (h : off = f.length) : writeAt f off b = f ++ b := by
  subst h
  simp [writeAt]

/-- The table of a pack. -/
def tableBytes : List SmallFile → (nameOff dataOff : Nat) → Bytes
  | [], _, _ => []
  | f :: fs, no, dof =>
    intBytes no ++ intBytes dof ++ intBytes f.size ++ tableBytes fs (no + (f.name.length + 1)) (dof + f.size)

/-- The names of a pack. -/
def nameBytes : List SmallFile → Bytes
  | [] => []
  | f :: fs => f.name ++ [0] ++ nameBytes fs

/-- The contents of a pack. -/
def dataBytes (garb : Nat → UInt8) : List SmallFile → Bytes
  | [] => []
  | f :: fs => (readSmall garb f).getD [] ++ dataBytes garb fs

theorem intBytes_length (v : Nat) : (intBytes v).length = 4 := rfl

theorem tableBytes_length : ∀ (fs : List SmallFile) (no dof : Nat), (tableBytes fs no dof).length = 12 * fs.length
  | [], _, _ => rfl
  | f :: fs, no, dof => by
    simp only [tableBytes, List.length_append, intBytes_length, tableBytes_length fs, List.length_cons]
    omega

theorem nameBytes_length : ∀ fs : List SmallFile, (nameBytes fs).length = namesLen fs
  | [] => rfl
  | f :: fs => by
    simp only [nameBytes, namesLen, List.length_append, List.length_cons, List.length_nil, nameBytes_length fs]

theorem readSmall_length {garb : Nat → UInt8} {f : SmallFile} {d : Bytes} (h : readSmall garb f = some d) :
    d.length = f.size := by
  unfold readSmall at h
  split at h
  · cases h
  · cases h
    simp only [List.length_append, List.length_take, List.length_map, List.length_range]
    omega

theorem writeTable_eq : ∀ (fs : List SmallFile) (no dof off : Nat) (file : Bytes), off = file.length →
    writeTable fs no dof off file = (file ++ tableBytes fs no dof, off + 12 * fs.length)
  | [], no, dof, off, file, _ => by simp [writeTable, tableBytes]
  | f :: fs, no, dof, off, file, h => by
    simp only [writeTable]
    rw [writeAt_end h, writeAt_end (f := file ++ intBytes no) (by simp [intBytes_length, h]),
      writeAt_end (f := file ++ intBytes no ++ intBytes dof) (by simp [intBytes_length, h]),
      writeTable_eq fs _ _ _ _ (by simp [intBytes_length, h])]
    simp only [tableBytes, List.append_assoc, List.length_cons]
    congr 1
    omega

theorem writeNames_eq : ∀ (fs : List SmallFile) (off : Nat) (file : Bytes), off = file.length →
    writeNames fs off file = (file ++ nameBytes fs, off + namesLen fs)
  | [], off, file, _ => by simp [writeNames, nameBytes, namesLen]
  | f :: fs, off, file, h => by
    simp only [writeNames]
    rw [writeAt_end h, writeNames_eq fs _ _ (by simp [h])]
    simp only [nameBytes, namesLen, List.append_assoc]
    congr 1
    omega

theorem writeDatas_eq (garb : Nat → UInt8) : ∀ (fs : List SmallFile) (off : Nat) (file out : Bytes),
    off = file.length → writeDatas garb fs off file = some out → out = file ++ dataBytes garb fs
  | [], off, file, out, _, h => by
    simp only [writeDatas, Option.some.injEq] at h
    simp [dataBytes, h]
  | f :: fs, off, file, out, ho, h => by
    simp only [writeDatas] at h
    split at h
    · rename_i hr
      split at h
      · have := writeDatas_eq garb fs _ _ _ ho h
        simp [dataBytes, hr, this]
      · cases h
    · rename_i d hr
      rw [writeAt_end ho] at h
      have := writeDatas_eq garb fs _ _ _ (by simp [ho, readSmall_length hr]) h
      simp [dataBytes, hr, this]

/-- The contents of a pack. -/
theorem flushSmall_eq {garb : Nat → UInt8} {fs : List SmallFile} {out : Bytes} (h : flushSmall garb fs = some out) :
    out = intBytes fs.length
      ++ tableBytes fs (4 * (1 + 3 * fs.length)) (4 * (1 + 3 * fs.length) + namesLen fs)
      ++ nameBytes fs ++ dataBytes garb fs := by
  unfold flushSmall at h
  simp only [writeAt_end (f := []) (off := 0) rfl, List.nil_append] at h
  rw [writeTable_eq _ _ _ _ _ (intBytes_length _).symm] at h
  simp only at h
  rw [writeNames_eq _ _ _ (by simp [intBytes_length, tableBytes_length])] at h
  simp only at h
  have := writeDatas_eq garb fs _ _ _
    (by simp [intBytes_length, tableBytes_length, nameBytes_length]; omega) h
  rw [this]

theorem readInt_intBytes {d rest : Bytes} {off v : Nat} (h : d.drop off = intBytes v ++ rest)
    (hv : v < 2147483648) : readInt d off = some v := by
  unfold readInt
  rw [h]
  simp only [intBytes, List.cons_append, List.nil_append, List.take_succ_cons, List.take_zero,
    UInt8.toNat_ofNat']
  have : v % 2 ^ 8 + 256 * (v / 256 % 2 ^ 8) + 65536 * (v / 65536 % 2 ^ 8) + 16777216 * (v / 16777216 % 2 ^ 8) = v := by
    omega
  rw [this, if_pos hv]

theorem takeWhile_name : ∀ (nm rest : Bytes), (∀ b ∈ nm, b ≠ 0) →
    (nm ++ 0 :: rest).takeWhile (fun b => b != 0) = nm
  | [], rest, _ => by simp
  | b :: nm, rest, h => by
    have hb : b ≠ 0 := h b (by simp)
    rw [List.cons_append, List.takeWhile_cons, takeWhile_name nm rest (fun c hc => h c (by simp [hc]))]
    simp [hb]

theorem readName_eq {d rest nm : Bytes} {off : Nat} (h : d.drop off = nm ++ 0 :: rest) (h0 : ∀ b ∈ nm, b ≠ 0)
    (ha : ∀ b ∈ nm, b < 128) : readName d off = some nm := by
  unfold readName
  simp only [h]
  have hc : (nm ++ 0 :: rest).contains 0 = true := by simp
  rw [if_pos hc, takeWhile_name nm rest h0, if_pos]
  simpa using ha

theorem drop_add' {d a b : Bytes} {n m : Nat} (h : d.drop n = a ++ b) (hm : m = a.length) : d.drop (n + m) = b := by
  rw [← List.drop_drop, h, hm, List.drop_left]

theorem unpackFrom_eq (garb : Nat → UInt8) (d : Bytes) : ∀ (fs : List SmallFile) (i no dof : Nat) (r0 r1 r2 : Bytes),
    d.drop (4 + i * 12) = tableBytes fs no dof ++ r0 → d.drop no = nameBytes fs ++ r1 →
    d.drop dof = dataBytes garb fs ++ r2 →
    (∀ f ∈ fs, (∀ b ∈ f.name, b ≠ 0 ∧ b < 128) ∧ ((readSmall garb f).isSome ∨ f.size = 0)) →
    no + namesLen fs < 2147483648 → dof + (dataBytes garb fs).length < 2147483648 →
    unpackFrom d fs.length i = some (fs.map (fun f => (f.name, (readSmall garb f).getD [])))
  | [], _, _, _, _, _, _, _, _, _, _, _, _ => rfl
  | f :: fs, i, no, dof, r0, r1, r2, h0, h1, h2, hf, hno, hdo => by
    obtain ⟨hn, hr⟩ := hf f (by simp)
    have hlen : ((readSmall garb f).getD []).length = f.size := by
      rcases hr with hr | hr
      · obtain ⟨x, hx⟩ := Option.isSome_iff_exists.1 hr
        rw [hx]
        exact readSmall_length hx
      · cases hx : readSmall garb f with
        | none => simp [hr]
        | some x => exact readSmall_length hx
    simp only [namesLen] at hno
    simp only [dataBytes, List.length_append, hlen] at hdo
    simp only [tableBytes, List.append_assoc] at h0
    simp only [nameBytes, List.append_assoc, List.cons_append, List.nil_append] at h1
    simp only [dataBytes, List.append_assoc] at h2
    have e0 := readInt_intBytes h0 (by omega)
    have h0' := drop_add' h0 (m := 4) (intBytes_length _).symm
    have e1 := readInt_intBytes h0' (by omega)
    have h0'' := drop_add' h0' (m := 4) (intBytes_length _).symm
    have e2 := readInt_intBytes (off := 4 + i * 12 + 8) h0'' (by omega)
    have h0''' := drop_add' h0'' (m := 4) (intBytes_length _).symm
    have e3 := readName_eq h1 (fun b hb => (hn b hb).1) (fun b hb => (hn b hb).2)
    have h1' : d.drop (no + (f.name.length + 1)) = nameBytes fs ++ r1 :=
      drop_add' (a := f.name ++ [0]) (by simpa using h1) (by simp)
    have h2' := drop_add' h2 (m := f.size) hlen.symm
    have hrec := unpackFrom_eq garb d fs (i + 1) _ _ r0 r1 r2
      (by rw [show 4 + (i + 1) * 12 = 4 + i * 12 + 4 + 4 + 4 by omega]; exact h0''') h1' h2'
      (fun g hg => hf g (by simp [hg])) (by omega) (by omega)
    simp only [List.length_cons, unpackFrom, e0, e1, e2, e3, hrec, Option.bind_eq_bind, Option.bind_some,
      List.map_cons]
    rw [h2, ← hlen, List.take_left]

theorem flushSmall_some {garb : Nat → UInt8} : ∀ {fs : List SmallFile} {off : Nat} {file out : Bytes},
    writeDatas garb fs off file = some out → ∀ f ∈ fs, (readSmall garb f).isSome ∨ f.size = 0
  | [], _, _, _, _, _, hf => by cases hf
  | f :: fs, off, file, out, h, g, hg => by
    simp only [writeDatas] at h
    split at h
    · split at h
      · rename_i hz
        rcases List.mem_cons.1 hg with rfl | hg
        · exact .inr hz
        · exact flushSmall_some h g hg
      · cases h
    · rename_i d hr
      rcases List.mem_cons.1 hg with rfl | hg
      · exact .inl (by simp [hr])
      · exact flushSmall_some h g hg

/-- Taking a pack apart gives the names and what was read for them. -/
theorem unpack_flushSmall {garb : Nat → UInt8} {fs : List SmallFile} {out : Bytes}
    (h : flushSmall garb fs = some out) (hn : ∀ f ∈ fs, ∀ b ∈ f.name, b ≠ 0 ∧ b < 128)
    (hl : out.length < 2147483648) :
    unpack out = some (fs.map (fun f => (f.name, (readSmall garb f).getD []))) := by
  have hs : ∀ f ∈ fs, (readSmall garb f).isSome ∨ f.size = 0 := by
    have h' := h
    unfold flushSmall at h'
    exact fun f hf => flushSmall_some h' f hf
  have he := flushSmall_eq h
  have hl' : out.length = 4 + 12 * fs.length + namesLen fs + (dataBytes garb fs).length := by
    rw [he]
    simp [intBytes_length, tableBytes_length, nameBytes_length]
    omega
  unfold unpack
  rw [readInt_intBytes (d := out) (off := 0) (v := fs.length)
    (by rw [he]; simp only [List.drop_zero, List.append_assoc]; rfl) (by omega)]
  simp only [Option.bind_eq_bind, Option.bind_some]
  have a0 : out.drop 4 = tableBytes fs (4 * (1 + 3 * fs.length)) (4 * (1 + 3 * fs.length) + namesLen fs)
      ++ (nameBytes fs ++ dataBytes garb fs) := by
    have := drop_add' (d := out) (n := 0) (m := 4) (a := intBytes fs.length)
      (by rw [he]; simp only [List.drop_zero, List.append_assoc]; rfl) (intBytes_length _).symm
    simpa using this
  have a1 := drop_add' (m := 12 * fs.length) a0 (tableBytes_length _ _ _).symm
  have a2 := drop_add' (m := namesLen fs) a1 (nameBytes_length _).symm
  exact unpackFrom_eq garb out fs 0 _ _ _ _ [] a0
    (by rw [show 4 * (1 + 3 * fs.length) = 4 + 12 * fs.length by omega]; exact a1)
    (by rw [show 4 * (1 + 3 * fs.length) + namesLen fs = 4 + 12 * fs.length + namesLen fs by omega, a2]; simp)
    (fun f hf => ⟨hn f hf, hs f hf⟩) (by omega) (by omega)

end Verif.S3Backup
