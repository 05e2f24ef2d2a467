import Verif.Wal.Reader
/-! Proof engineering for the WAL parser: `Parses` (what a parser does on bytes
that are there) and `Local` (a parser depends only on bytes before the end). -/

namespace Verif.Wal

theorem leBytes_length (n x : Nat) : (leBytes n x).length = n := by
  induction n generalizing x with
  | zero => rfl
  | succ n ih => simp [leBytes, ih]

theorem leVal_leBytes (n x : Nat) : leVal (leBytes n x) = x % 256 ^ n := by
  induction n generalizing x with
  | zero => simp [leBytes, leVal, Nat.mod_one]
  | succ n ih =>
    simp only [leBytes, leVal, ih]
    have h1 : (UInt8.ofNat x).toNat = x % 256 := by simp
    rw [h1, Nat.pow_succ, Nat.mul_comm (256 ^ n) 256, Nat.mod_mul]

@[simp] theorem u8_length (x) : (u8 x).length = 1 := rfl
@[simp] theorem u16_length (x) : (u16 x).length = 2 := leBytes_length _ _
@[simp] theorem u32_length (x) : (u32 x).length = 4 := leBytes_length _ _
@[simp] theorem u64_length (x) : (u64 x).length = 8 := leBytes_length _ _

/-- The bytes `bs` lie at position `p` of the buffer, inside it. -/
def At (b : Buf) (p : Nat) (bs : List UInt8) : Prop :=
  p + bs.length ≤ b.fin ∧ ∀ i (h : i < bs.length), b.mem (p + i) = bs[i]

theorem At.left {b p xs ys} (h : At b p (xs ++ ys)) : At b p xs := by
  refine ⟨by have := h.1; simp at this; omega, fun i hi => ?_⟩
  rw [h.2 i (by simp; omega)]
  simp [hi]

theorem At.right {b p xs ys} (h : At b p (xs ++ ys)) : At b (p + xs.length) ys := by
  refine ⟨by have := h.1; simp at this; omega, fun i hi => ?_⟩
  have := h.2 (xs.length + i) (by simp; omega)
  rw [Nat.add_assoc, this]
  simp

theorem at_bufOf (bs tail) : At (bufOf bs tail) 0 bs := by
  refine ⟨by simp [bufOf], fun i hi => ?_⟩
  simp [bufOf, hi]

/-- On a buffer holding `bs` at the cursor, `q` yields `a` and consumes exactly `bs`. -/
def Parses {α} (q : P α) (bs : List UInt8) (a : α) : Prop :=
  ∀ b p, At b p bs → q b p = .ok a (p + bs.length)

theorem Parses.pure {α} (a : α) : Parses (pure a : P α) [] a := by
  intro b p _; rfl

theorem Parses.bind {α β} {q : P α} {f : α → P β} {bs bs' a c}
    (h : Parses q bs a) (h' : Parses (f a) bs' c) : Parses (q >>= f) (bs ++ bs') c := by
  intro b p hat
  show (match q b p with | .ok a p' => f a b p' | .eof => .eof) = _
  rw [h b p hat.left]
  simp only
  rw [h' _ _ hat.right]
  simp [Nat.add_assoc]

theorem Parses.bind_pure {α β} {q : P α} {f : α → β} {bs a}
    (h : Parses q bs a) : Parses (q >>= fun x => Pure.pure (f x)) bs (f a) := by
  have := Parses.bind (f := fun x => (Pure.pure (f x) : P β)) h (Parses.pure (f a))
  simpa using this

theorem parses_bytes (bs : List UInt8) : Parses (readBytes bs.length) bs bs := by
  intro b p hat
  unfold readBytes
  rw [if_neg (by have := hat.1; omega)]
  congr 1
  apply List.ext_getElem
  · simp
  · intro i h1 h2
    simp [hat.2 i h2]

theorem parses_le (n x : Nat) : Parses (readBytes n) (leBytes n x) (leBytes n x) := by
  have := parses_bytes (leBytes n x)
  rwa [leBytes_length] at this

theorem parses_u8 (x : UInt8) : Parses readU8 (u8 x) x := by
  have h := Parses.bind_pure (f := fun bs => UInt8.ofNat (leVal bs)) (parses_bytes (u8 x))
  have e : UInt8.ofNat (leVal (u8 x)) = x := by simp [u8, leVal]
  rw [e] at h; exact h

theorem parses_u16 (x : UInt16) : Parses readU16 (u16 x) x := by
  have h := Parses.bind_pure (f := fun bs => UInt16.ofNat (leVal bs)) (parses_le 2 x.toNat)
  have e : UInt16.ofNat (leVal (leBytes 2 x.toNat)) = x := by
    rw [leVal_leBytes, Nat.mod_eq_of_lt (by have := x.toNat_lt; omega)]; simp
  rw [e] at h; exact h

theorem parses_u32 (x : UInt32) : Parses readU32 (u32 x) x := by
  have h := Parses.bind_pure (f := fun bs => UInt32.ofNat (leVal bs)) (parses_le 4 x.toNat)
  have e : UInt32.ofNat (leVal (leBytes 4 x.toNat)) = x := by
    rw [leVal_leBytes, Nat.mod_eq_of_lt (by have := x.toNat_lt; omega)]; simp
  rw [e] at h; exact h

theorem parses_u64 (x : UInt64) : Parses readU64 (u64 x) x := by
  have h := Parses.bind_pure (f := fun bs => UInt64.ofNat (leVal bs)) (parses_le 8 x.toNat)
  have e : UInt64.ofNat (leVal (leBytes 8 x.toNat)) = x := by
    rw [leVal_leBytes, Nat.mod_eq_of_lt (by have := x.toNat_lt; omega)]; simp
  rw [e] at h; exact h

theorem parses_oids (o : Oids) : Parses readOids (encOids o) o := by
  unfold readOids encOids
  rw [List.append_assoc]
  exact (parses_u32 _).bind ((parses_u32 _).bind (parses_u32 _).bind_pure)

/-! ### Locality -/

/-- `q` started inside the buffer depends only on the bytes before `fin`,
never moves back and never ends past `fin`. -/
def Local {α} (q : P α) : Prop :=
  ∀ b b' p, b.fin = b'.fin → (∀ i, i < b.fin → b.mem i = b'.mem i) → p ≤ b.fin →
    q b p = q b' p ∧ ∀ a p', q b p = .ok a p' → p ≤ p' ∧ p' ≤ b.fin

theorem Local.pure {α} (a : α) : Local (pure a : P α) := by
  intro b b' p _ _ h
  refine ⟨rfl, fun a' p' h' => ?_⟩
  have : Res.ok a p = Res.ok a' p' := h'
  cases this; omega

theorem Local.bind {α β} {q : P α} {f : α → P β} (h : Local q) (h' : ∀ a, Local (f a)) :
    Local (q >>= f) := by
  intro b b' p e m hp
  obtain ⟨h1, h2⟩ := h b b' p e m hp
  show (match q b p with | .ok a p' => f a b p' | .eof => .eof)
      = (match q b' p with | .ok a p' => f a b' p' | .eof => .eof) ∧ ∀ a p',
      (match q b p with | .ok a p' => f a b p' | .eof => .eof) = .ok a p' → _
  rw [← h1]
  cases hq : q b p with
  | eof => simp
  | ok a p1 =>
    have := h2 a p1 hq
    obtain ⟨g1, g2⟩ := h' a b b' p1 e m this.2
    simp only
    refine ⟨g1, fun c p2 hc => ?_⟩
    have := g2 c p2 hc
    omega

theorem local_bytes (n : Nat) : Local (readBytes n) := by
  intro b b' p e m hp
  unfold readBytes
  rw [← e]
  by_cases hc : p ≤ b.fin ∧ b.fin - p < n
  · simp [hc]
  · rw [if_neg hc, if_neg hc]
    constructor
    · congr 1
      apply List.map_congr_left
      intro i hi
      exact m _ (by simp at hi; omega)
    · intro a p' h; cases h; omega

theorem local_u8 : Local readU8 := (local_bytes 1).bind fun _ => Local.pure _
theorem local_u16 : Local readU16 := (local_bytes 2).bind fun _ => Local.pure _
theorem local_u32 : Local readU32 := (local_bytes 4).bind fun _ => Local.pure _
theorem local_u64 : Local readU64 := (local_bytes 8).bind fun _ => Local.pure _

/-- Closes `Local` goals of the parsers of `Reader.lean`. -/
macro "local_tac" : tactic => `(tactic| repeat' first
  | exact local_u8 | exact local_u16 | exact local_u32 | exact local_u64
  | exact local_bytes _ | exact Local.pure _
  | (refine Local.bind ?_ (fun _ => ?_)) | split)

theorem local_oids : Local readOids := by unfold readOids; local_tac

theorem local_recParser {v r t q} (h : recParser v r t = some q) : Local q := by
  unfold recParser at h
  split at h <;> first
    | contradiction
    | (injection h with h; subst h
       first
        | exact Local.pure _
        | (unfold parseXid; local_tac)
        | (unfold parseFinish; local_tac)
        | (unfold parseRelation readOids; local_tac)
        | (unfold parseModify; local_tac)
        | (unfold parseMetaUnlock; local_tac)
        | (unfold parseSavepoint; local_tac)
        | (unfold parseRbToSp; local_tac)
        | (unfold parseJointCommit; local_tac)
        | (unfold parseTruncate readOids; local_tac)
        | (unfold parseBridgeErase; local_tac)
        | (unfold parseSwitchXid; local_tac)
        | (unfold parseRelreplident; local_tac)
        | (unfold parseDbCopy; local_tac)
        | (unfold parseDbCreateCopy; local_tac)
        | (unfold parseCic readOids; local_tac))

theorem readU8_ok_lt {b p a p'} (h : readU8 b p = .ok a p') : p < p' := by
  simp only [readU8, bind, pure, readBytes] at h
  split at h
  · rename_i hh; split at hh
    · cases hh
    · cases hh; cases h; omega
  · cases h

theorem recLoop_local (v : Nat) (b b' : Buf) (e : b.fin = b'.fin)
    (m : ∀ i, i < b.fin → b.mem i = b'.mem i) :
    ∀ fuel c p, p ≤ b.fin → b.fin - p ≤ fuel →
      recLoop v b fuel c p = recLoop v b' fuel c p ∧
      (recLoop v b fuel c p).2.1 ≠ .diverged ∧ (recLoop v b fuel c p).2.2 ≤ b.fin := by
  intro fuel
  induction fuel with
  | zero =>
    intro c p hp hf
    have : ¬ p < b.fin := by omega
    simp [recLoop, ← e, this, hp]
  | succ n ih =>
    intro c p hp hf
    unfold recLoop
    rw [← e]
    by_cases hlt : p < b.fin
    · rw [if_pos hlt, if_pos hlt]
      obtain ⟨h1, h2⟩ := local_u8 b b' p e m hp
      rw [← h1]
      cases hr : readU8 b p with
      | eof => simp [hp]
      | ok tag p1 =>
        have hp1 := h2 tag p1 hr
        have hlt1 := readU8_ok_lt hr
        simp only
        cases hq : recParser v c.relreplident tag with
        | none => simp [hp1.2]
        | some q =>
          simp only
          obtain ⟨g1, g2⟩ := local_recParser hq b b' p1 e m hp1.2
          rw [← g1]
          cases hqr : q b p1 with
          | eof => simp [hp1.2]
          | ok r p2 =>
            have hp2 := g2 r p2 hqr
            simp only
            obtain ⟨i1, i2, i3⟩ := ih (c.after r) p2 hp2.2 (by omega)
            rw [← i1]
            exact ⟨rfl, i2, i3⟩
    · rw [if_neg hlt, if_neg hlt]
      simp [hp]

end Verif.Wal
