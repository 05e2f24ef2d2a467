import Verif.S3Backup.Sums

/-! # The file of checksums is read back as it was written -/

namespace Verif.S3Backup

theorem dropWhile_head {s rest : Bytes} (hs : s ≠ []) (h : ∀ b, s.head? = some b → isSpace b = false) :
    (s ++ rest).dropWhile isSpace = s ++ rest := by
  cases s with
  | nil => exact absurd rfl hs
  | cons b s => simp [List.dropWhile_cons, h b rfl]

theorem scanSet_eq {n : Nat} {s rest : Bytes} (hn : s.length ≤ n) (h0 : s ≠ []) (hc : ∀ b ∈ s, b ≠ 44) :
    scanSet n (s ++ 44 :: rest) = some (s, 44 :: rest) := by
  have ht : ((s ++ 44 :: rest).take n).takeWhile (fun b => b != 44) = s := by
    rw [List.take_append, List.takeWhile_append_of_pos]
    · cases h : n - s.length with
      | zero => simp [List.take_of_length_le hn]
      | succ k => simp [List.take_of_length_le hn]
    · intro b hb
      rw [List.take_of_length_le hn] at hb
      simpa using hc b hb
  unfold scanSet
  simp only [ht, if_neg h0, List.drop_left]

theorem digits_ne (n : Nat) : digits n ≠ [] := by
  rw [digits]
  split <;> simp

theorem digit_toNat {k : Nat} (h : k < 10) : (UInt8.ofNat (48 + k)).toNat = 48 + k := by
  rw [UInt8.toNat_ofNat']
  omega

theorem isDigit_ofNat {k : Nat} (h : k < 10) : isDigit (UInt8.ofNat (48 + k)) = true := by
  unfold isDigit
  simp only [Bool.and_eq_true, decide_eq_true_eq, UInt8.le_iff_toNat_le, digit_toNat h]
  have h1 : (48 : UInt8).toNat = 48 := rfl
  have h2 : (57 : UInt8).toNat = 57 := rfl
  omega

theorem digits_isDigit (n : Nat) : ∀ b ∈ digits n, isDigit b = true := by
  induction n using Nat.strongRecOn with
  | ind n ih =>
    intro b hb
    rw [digits] at hb
    split at hb
    · rename_i h
      rw [List.mem_singleton.1 hb]
      exact isDigit_ofNat h
    · rcases List.mem_append.1 hb with hb | hb
      · exact ih (n / 10) (by omega) b hb
      · rw [List.mem_singleton.1 hb]
        exact isDigit_ofNat (by omega)

theorem digits_value (n : Nat) : (digits n).foldl (fun a b => 10 * a + (b.toNat - 48)) 0 = n := by
  induction n using Nat.strongRecOn with
  | ind n ih =>
    rw [digits]
    split
    · rename_i h
      simp only [List.foldl_cons, List.foldl_nil, digit_toNat h]
      omega
    · rw [List.foldl_append, ih (n / 10) (by omega)]
      simp only [List.foldl_cons, List.foldl_nil, digit_toNat (k := n % 10) (by omega)]
      omega

theorem isDigit_not_space {b : UInt8} (h : isDigit b = true) : isSpace b = false := by
  unfold isDigit at h
  unfold isSpace
  simp only [Bool.and_eq_true, decide_eq_true_eq, UInt8.le_iff_toNat_le] at h
  have h1 : (48 : UInt8).toNat = 48 := rfl
  have h2 : (13 : UInt8).toNat = 13 := rfl
  have h3 : (32 : UInt8).toNat = 32 := rfl
  simp only [Bool.or_eq_false_iff, Bool.and_eq_false_iff, beq_eq_false_iff_ne, decide_eq_false_iff_not,
    UInt8.le_iff_toNat_le]
  refine ⟨?_, .inr (by omega)⟩
  intro hb
  rw [hb] at h
  omega

theorem scanU_eq (n : Nat) : scanU (digits n ++ [10]) = some n := by
  have hd : (digits n ++ [10]).dropWhile isSpace = digits n ++ [10] := by
    refine dropWhile_head (digits_ne n) ?_
    intro b hb
    exact isDigit_not_space (digits_isDigit n b (List.mem_of_mem_head? hb))
  have ht : (digits n ++ [10]).takeWhile isDigit = digits n := by
    rw [List.takeWhile_append_of_pos (digits_isDigit n)]
    have : List.takeWhile isDigit [10] = [] := by decide
    rw [this, List.append_nil]
  unfold scanU
  simp only [hd, ht, if_neg (digits_ne n), digits_value]

/-- What the format of the file can carry: at least one byte, at most `n`, no comma, no newline, no blank in front. -/
def Plain (n : Nat) (s : Bytes) : Prop :=
  s ≠ [] ∧ s.length ≤ n ∧ (∀ b ∈ s, b ≠ 44 ∧ b ≠ 10) ∧ ∀ b, s.head? = some b → isSpace b = false

theorem scan_file {s rest : Bytes} {n : Nat} (h : Plain n s) : scanLit litFile (litFile ++ (s ++ rest)) = some (s ++ rest) := by
  have := dropWhile_head (rest := rest) h.1 h.2.2.2
  simp [scanLit, litFile, isSpace] at this ⊢
  exact this

theorem scan_sum {s rest : Bytes} {n : Nat} (h : Plain n s) : scanLit litSum (litSum ++ (s ++ rest)) = some (s ++ rest) := by
  have := dropWhile_head (rest := rest) h.1 h.2.2.2
  simp [scanLit, litSum, isSpace] at this ⊢
  exact this

theorem scan_ck (n : Nat) : scanLit litCk (litCk ++ (digits n ++ [10])) = some (digits n ++ [10]) := by
  have := dropWhile_head (rest := [10]) (digits_ne n)
    (fun b hb => isDigit_not_space (digits_isDigit n b (List.mem_of_mem_head? hb)))
  simp [scanLit, litCk, isSpace] at this ⊢
  exact this

theorem parseLine_format {e : Entry} (hn : Plain 1023 e.name) (hs : Plain 64 e.sum) :
    parseLine (formatLine e) = some e := by
  unfold parseLine formatLine
  have h1 : litFile ++ e.name ++ litSum ++ e.sum ++ litCk ++ digits e.ck ++ [10]
      = litFile ++ (e.name ++ (litSum ++ (e.sum ++ (litCk ++ (digits e.ck ++ [10]))))) := by simp
  rw [h1, scan_file hn]
  simp only [Option.bind_eq_bind, Option.bind_some]
  have h2 : litSum ++ (e.sum ++ (litCk ++ (digits e.ck ++ [10])))
      = 44 :: (litSum.tail ++ (e.sum ++ (litCk ++ (digits e.ck ++ [10])))) := rfl
  rw [h2, scanSet_eq hn.2.1 hn.1 (fun b hb => (hn.2.2.1 b hb).1), ← h2]
  simp only [Option.bind_some]
  rw [scan_sum hs]
  simp only [Option.bind_some]
  have h3 : litCk ++ (digits e.ck ++ [10]) = 44 :: (litCk.tail ++ (digits e.ck ++ [10])) := rfl
  rw [h3, scanSet_eq hs.2.1 hs.1 (fun b hb => (hs.2.2.1 b hb).1), ← h3]
  simp only [Option.bind_some]
  rw [scan_ck]
  simp only [Option.bind_some, scanU_eq]

theorem splitLines_line : ∀ (a rest : Bytes), (∀ b ∈ a, b ≠ 10) →
    splitLines (a ++ 10 :: rest) = (a ++ [10]) :: splitLines rest
  | [], rest, _ => by simp [splitLines]
  | b :: a, rest, h => by
    have hb : b ≠ 10 := h b (by simp)
    rw [List.cons_append, splitLines, if_neg hb, splitLines_line a rest (fun c hc => h c (by simp [hc]))]
    rfl

theorem digit_ne_10 {b : UInt8} (h : isDigit b = true) : b ≠ 10 := by
  intro hb
  subst hb
  revert h
  decide

theorem splitLines_format {e : Entry} {rest : Bytes} (hn : Plain 1023 e.name) (hs : Plain 64 e.sum) :
    splitLines (formatLine e ++ rest) = formatLine e :: splitLines rest := by
  have h1 : formatLine e ++ rest = (litFile ++ e.name ++ litSum ++ e.sum ++ litCk ++ digits e.ck) ++ 10 :: rest := by
    simp [formatLine]
  rw [h1, splitLines_line]
  · simp [formatLine]
  · intro b hb
    simp only [List.mem_append] at hb
    rcases hb with ((((hb | hb) | hb) | hb) | hb) | hb
    · revert b
      decide
    · exact (hn.2.2.1 b hb).2
    · revert b
      decide
    · exact (hs.2.2.1 b hb).2
    · revert b
      decide
    · exact digit_ne_10 (digits_isDigit _ b hb)

theorem readLines_format {n : Nat} : ∀ (T acc : List Entry),
    (∀ e ∈ T, Plain 1023 e.name ∧ Plain 64 e.sum ∧ e.ck < n) → ((acc ++ T).map Entry.name).Nodup →
    readLines n (splitLines (formatFile T)) acc = some (acc ++ T)
  | [], acc, _, _ => by simp [formatFile, splitLines, readLines]
  | e :: T, acc, h, hd => by
    obtain ⟨h1, h2, h3⟩ := h e (by simp)
    have : formatFile (e :: T) = formatLine e ++ formatFile T := by simp [formatFile]
    rw [this, splitLines_format h1 h2, readLines, parseLine_format h1 h2]
    simp only
    rw [if_neg (by omega), if_neg, readLines_format T (acc ++ [e]) (fun x hx => h x (by simp [hx])) (by simpa using hd)]
    · simp
    · intro hany
      obtain ⟨x, hx, hxe⟩ := List.any_eq_true.1 hany
      have hxe : x.name = e.name := by simpa using hxe
      rw [List.map_append, List.nodup_append] at hd
      exact hd.2.2 _ (List.mem_map_of_mem hx) _ (by simp) hxe

theorem parseFile_format {n : Nat} {T : List Entry} (h : ∀ e ∈ T, Plain 1023 e.name ∧ Plain 64 e.sum ∧ e.ck < n)
    (hd : (T.map Entry.name).Nodup) : parseFile n (formatFile T) = some T := by
  unfold parseFile
  have := readLines_format T [] h (by simpa using hd)
  simpa using this

end Verif.S3Backup
