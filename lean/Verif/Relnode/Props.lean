import Verif.Relnode.Model

/-!
# C32, C33

C33: however many trees a relation has, what a transaction registers makes the end of the
transaction treat exactly these trees, each once.

C32: drops deferred because of a backup.  The code does not do what it should: whatever is
deferred, replaying the list stops the background writer with `FATAL`.
-/

namespace Verif.Relnode

variable {T : Type}

/-! ## C33 -/

/-- What has to happen to the trees of a relation whose old trees `old` are replaced by
`new`, once at each stage.  Reads as English: before commit the new files are synced (if
asked for), at commit the old trees are removed, at abort the new ones are. -/
structure Complete (its : List (Item T)) (old new : List T) (fsync : Bool) : Prop where
  preCommit : ∀ b c, process b c .preCommit its =
    if fsync then new.map (fun t => .fsync (some t)) else []
  commit : process false true .commit its = old.map (fun t => .cleanup (some t))
  abort : ∀ b c, process b c .abort its = new.map (fun t => .cleanup (some t))
  /-- During a backup, exactly the old trees are put on the list of deferred drops. -/
  deferred : ∃ parts : List (List T), parts.flatten = old ∧
    process true true .commit its = parts.map (fun ts => .deferDrop (ts.map some))
  /-- With rewind, the end of the transaction removes nothing; the rewind worker does. -/
  rewind : ∀ b, process b false .commit its = []
  /-- No record is larger than an undo record may be. -/
  size : ∀ it ∈ its, treesOffset + treeSize * it.trees.length ≤ maxRecordSize

theorem take_min (l : List T) (n : Nat) : l.take (min l.length n) = l.take n := by
  by_cases h : l.length ≤ n
  · rw [Nat.min_eq_left h, List.take_length, List.take_of_length_le h]
  · rw [Nat.min_eq_right (by omega)]

theorem copy_old (old : List T) (a k : Nat) (ha : a ≤ old.length) :
    (if old.length > 0 then copyTrees (List.replicate (a + k) none) 0 old a
      else some (List.replicate (a + k) none)) =
      some ((old.take a).map some ++ List.replicate k none) := by
  by_cases h0 : a = 0
  · subst h0
    simp [copyTrees]
  · rw [if_pos (by omega), copyTrees, if_neg h0, if_pos (by simp; omega)]
    simp [List.drop_replicate]

theorem copy_new (new : List T) (t : List (Option T)) (i a k : Nat) (hk : k ≤ new.length)
    (ht : t.length = a) (hi : 0 < k → i = a) :
    (if new.length > 0 then copyTrees (t ++ List.replicate k none) i new k
      else some (t ++ List.replicate k none)) =
      some (t ++ (new.take k).map some) := by
  by_cases h0 : k = 0
  · subst h0
    simp [copyTrees]
  · have hi := hi (by omega)
    subst hi
    rw [if_pos (by omega), copyTrees, if_neg h0, if_pos (by simp; omega)]
    subst ht
    simp [List.drop_append]

theorem stepItem_eq (cap : Nat) (oldRel newRel : Option Nat) (fsync : Bool)
    (old new : List T) :
    stepItem cap oldRel newRel fsync old new =
      some ⟨oldRel, newRel, min old.length cap, min new.length (cap - min old.length cap),
        fsync, (old.take cap).map some ++
          (new.take (cap - min old.length cap)).map some⟩ := by
  rw [stepItem]
  simp only [copy_old old (min old.length cap) _ (Nat.min_le_left _ _)]
  rw [copy_new new _ _ (min old.length cap) _ (Nat.min_le_left _ _)
    (by simp) (by omega)]
  simp only [take_min]

/-- What the loop does, for items of any capacity: the items hold the trees in order. -/
theorem addLoop_ok (cap : Nat) (hc : 0 < cap) (oldRel newRel : Option Nat) (fsync : Bool) :
    ∀ (fuel : Nat) (old new : List T), old.length + new.length < fuel →
    ∃ its, addLoop cap oldRel newRel fsync fuel old new = some its ∧
      ∃ parts : List (List T × List T),
        (parts.map (·.1)).flatten = old ∧ (parts.map (·.2)).flatten = new ∧
        (∀ p ∈ parts, p.1.length + p.2.length ≤ cap) ∧
        its = parts.map (fun p => ⟨oldRel, newRel, p.1.length, p.2.length, fsync,
          p.1.map some ++ p.2.map some⟩) := by
  intro fuel
  induction fuel with
  | zero => intro old new h; omega
  | succ fuel ih =>
    intro old new hf
    rw [addLoop]
    by_cases h : old.length + new.length > 0
    · rw [if_pos h, stepItem_eq]
      obtain ⟨its, e, parts, h1, h2, h3, h4⟩ := ih (old.drop (min old.length cap))
        (new.drop (min new.length (cap - min old.length cap)))
        (by simp only [List.length_drop]; omega)
      simp only [e]
      refine ⟨_, rfl, (old.take cap, new.take (cap - min old.length cap)) :: parts,
        ?_, ?_, ?_, ?_⟩
      · simp only [List.map_cons, List.flatten_cons, h1]
        rw [← take_min old cap, List.take_append_drop]
      · simp only [List.map_cons, List.flatten_cons, h2]
        rw [← take_min new, List.take_append_drop]
      · intro p hp
        rcases List.mem_cons.1 hp with e | hp
        · subst e
          simp only [List.length_take]
          omega
        · exact h3 p hp
      · rw [h4]
        simp only [List.map_cons, List.length_take, List.cons.injEq, and_true]
        simp only [Nat.min_comm]
    · rw [if_neg h]
      have e1 : old = [] := List.length_eq_zero_iff.1 (by omega)
      have e2 : new = [] := List.length_eq_zero_iff.1 (by omega)
      exact ⟨[], rfl, [], by simp [e1], by simp [e2], by simp, rfl⟩

theorem flatMap_parts {A B C : Type} (parts : List A) (f : A → List B) (g : B → C) :
    parts.flatMap (fun p => (f p).map g) = ((parts.map f).flatten).map g := by
  induction parts with
  | nil => rfl
  | cons a l ih => simp [ih]

/-- Registered items are complete, for relations with valid relation nodes where there are
trees. -/
theorem complete_of (oldRel newRel : Option Nat) (fsync : Bool) (old new : List T)
    (ho : oldRel.isSome ∨ old = []) (hn : newRel.isSome ∨ new = []) :
    ∃ its, addUndoRelnode oldRel newRel fsync old new = some its ∧
      Complete its old new fsync := by
  obtain ⟨its, e, parts, h1, h2, h3, h4⟩ := addLoop_ok capacity (by decide) oldRel newRel fsync
    (old.length + new.length + 1) old new (by omega)
  refine ⟨its, e, ?_⟩
  have hnew : ∀ p ∈ parts, newRel.isSome ∨ p.2 = [] := by
    intro p hp
    rcases hn with h | h
    · exact Or.inl h
    · right
      rw [h] at h2
      exact List.flatten_eq_nil_iff.1 h2 _ (List.mem_map_of_mem hp)
  have hold : ∀ p ∈ parts, oldRel.isSome ∨ p.1 = [] := by
    intro p hp
    rcases ho with h | h
    · exact Or.inl h
    · right
      rw [h] at h1
      exact List.flatten_eq_nil_iff.1 h1 _ (List.mem_map_of_mem hp)
  have hproc : ∀ (b c : Bool) (st : Stage) (f : List T × List T → List (Effect T)),
      (∀ p ∈ parts, callback b c st ⟨oldRel, newRel, p.1.length, p.2.length, fsync,
          p.1.map some ++ p.2.map some⟩ = f p) →
      process b c st its = parts.flatMap f := by
    intro b c st f hf
    subst h4
    rw [process, List.flatMap_map]
    clear e h1 h2 h3 hnew hold
    induction parts with
    | nil => rfl
    | cons p l ih =>
      rw [List.flatMap_cons, List.flatMap_cons, hf p List.mem_cons_self,
        ih (fun q hq => hf q (List.mem_cons_of_mem _ hq))]
  have hdrop : ∀ p : List T × List T,
      ((p.1.map some ++ p.2.map some).drop p.1.length).take p.2.length = p.2.map some := by
    intro p
    rw [List.drop_left' (by simp), List.take_of_length_le (by simp)]
  have htake : ∀ p : List T × List T,
      (p.1.map some ++ p.2.map some).take p.1.length = p.1.map some := by
    intro p
    rw [List.take_left' (by simp)]
  constructor
  · intro b c
    cases fsync with
    | false =>
      rw [hproc b c .preCommit (fun _ => []) (by intro p _; simp [callback])]
      simp
    | true =>
      rw [hproc b c .preCommit (fun p => p.2.map (fun t => .fsync (some t))), flatMap_parts, h2]
      · simp
      · intro p hp
        simp only [callback, hdrop]
        rcases hnew p hp with h | h
        · simp [h]
        · simp [h]
  · rw [hproc false true .commit (fun p => p.1.map (fun t => .cleanup (some t))),
      flatMap_parts, h1]
    intro p hp
    simp only [callback, htake]
    rcases hold p hp with h | h
    · simp [h]
    · simp [h]
  · intro b c
    rw [hproc b c .abort (fun p => p.2.map (fun t => .cleanup (some t))), flatMap_parts, h2]
    intro p hp
    simp only [callback, hdrop]
    rcases hnew p hp with h | h
    · simp [h]
    · simp [h]
  · refine ⟨parts.map (·.1), h1, ?_⟩
    rw [hproc true true .commit (fun p => [.deferDrop (p.1.map some)])]
    · clear h1 h2 h3 h4 hnew hold hproc e
      induction parts with
      | nil => rfl
      | cons p l ih => rw [List.flatMap_cons, ih]; rfl
    · intro p _
      simp [callback, htake]
  · intro b
    rw [hproc b false .commit (fun _ => []) (by intro p _; simp [callback])]
    simp
  · intro it hit
    rw [h4] at hit
    obtain ⟨p, hp, rfl⟩ := List.mem_map.1 hit
    have := h3 p hp
    simp only [List.length_append, List.length_map]
    have hcap : treesOffset + treeSize * capacity ≤ maxRecordSize := by decide
    have : treeSize * (p.1.length + p.2.length) ≤ treeSize * capacity :=
      Nat.mul_le_mul_left _ this
    omega

/-- **C33.**  Dropping, truncating or creating a relation with any trees writes no memory
outside of the undo records, comes to an end, and registers exactly these trees. -/
theorem C33_complete (T : Type) :
    (∀ (rel : Nat) (trees : List T), ∃ its, addDrop rel trees = some its ∧
      Complete its trees [] false) ∧
    (∀ (rel : Nat) (fsync : Bool) (trees : List T), ∃ its,
      addCreate rel fsync trees = some its ∧ Complete its [] trees fsync) ∧
    (∀ (oldRel newRel : Nat) (fsync : Bool) (old new : List T), ∃ its,
      addTruncate oldRel newRel fsync old new = some its ∧ Complete its old new fsync) :=
  ⟨fun rel trees => complete_of (some rel) none false trees [] (Or.inl rfl) (Or.inr rfl),
   fun rel fsync trees => complete_of none (some rel) fsync [] trees (Or.inr rfl) (Or.inl rfl),
   fun o n fsync old new => complete_of (some o) (some n) fsync old new (Or.inl rfl)
     (Or.inl rfl)⟩

/-- A truncate with more trees than fit in one record: with room for two trees a record,
three old and two new trees make three records. -/
theorem case33 :
    (addLoop 2 (some 1) (some 2) true 6 [10, 11, 12] [20, 21]).map
      (fun its => its.map (fun it => (it.oldNumTrees, it.newNumTrees, it.trees))) =
      some [(2, 0, [some 10, some 11]), (1, 1, [some 12, some 20]), (0, 1, [some 21])] := by
  decide

/-- The capacity is 1021 trees, so that a relation with 1022 trees needs two records. -/
theorem case33_capacity : capacity = 1021 := by decide

/-! ## C32 -/

/-- Deferred drops, one after the other.  `stack i` are the bytes the `i`-th of them finds
on its stack. -/
def deferAll (stack : Nat → List Byte) : Nat → Pending → List Drop → Pending
  | _, p, [] => p
  | i, p, d :: r => deferAll stack (i + 1) (addPending (stack i) p d) r

/-- The list before anything is deferred. -/
def empty : Pending := ⟨[], 0⟩

/-- **C32**, the property: whatever is deferred, the first run after the backup removes
exactly the trees that were deferred, and nothing stays on the list.  `stack` is what the
code finds on its stack; the most that could be asked for in favour of the code is that
there are such bytes for each sequence of drops. -/
def C32 : Prop :=
  ∀ drops : List Drop, (∀ d ∈ drops, d.Ok) →
    ∃ stack : Nat → List Byte,
      (∀ (i : Nat) (d : Drop), drops[i]? = some d →
        (stack i).length = 16 * d.trees.length) ∧
      let r := checkPending false (deferAll stack 0 empty drops)
      r.removed = (drops.map (·.trees)).flatten ∧ r.fatal = false ∧ r.pending.loc = 0

theorem fileWrite_length (f : List Byte) (off : Nat) (b : List Byte) (h : b ≠ []) :
    (fileWrite f off b).length = max f.length (off + b.length) := by
  rw [fileWrite, if_neg h]
  simp only [List.length_append, List.length_take, List.length_drop, List.length_replicate]
  omega

theorem addPending_length (stack : List Byte) (p : Pending) (d : Drop) (hd : d.rel.length = 16)
    (hs : stack.length = 16 * d.trees.length) :
    (addPending stack p d).file.length =
      max (max p.file.length (p.loc + 16)) (16 * d.trees.length) := by
  simp only [addPending]
  have h1 : (fileWrite p.file p.loc d.rel).length = max p.file.length (p.loc + 16) := by
    rw [fileWrite_length _ _ _ (by intro e; rw [e] at hd; simp at hd), hd]
  have h2 : (fileWrite (fileWrite p.file p.loc d.rel) 0 (intBytes d.trees.length)).length =
      max p.file.length (p.loc + 16) := by
    rw [fileWrite_length _ _ _ (by simp [intBytes]), h1]
    simp only [intBytes, List.length_cons, List.length_nil]
    omega
  by_cases hb : stack = []
  · subst hb
    simp only [fileWrite, if_true] at *
    have : d.trees.length = 0 := by
      simp only [List.length_nil] at hs
      omega
    rw [h2, this]
    omega
  · rw [fileWrite_length _ _ _ hb, h2, hs]
    omega

/-- The file always ends before the end of the last entry. -/
def Short (p : Pending) : Prop := p.file.length < p.loc

theorem deferAll_short (stack : Nat → List Byte) (drops : List Drop) :
    ∀ (i : Nat) (p : Pending), (∀ d ∈ drops, d.Ok) →
    (∀ (j : Nat) (d : Drop), drops[j]? = some d →
      (stack (i + j)).length = 16 * d.trees.length) →
    (p.file.length ≤ p.loc) → (drops = [] → Short p) →
    Short (deferAll stack i p drops) := by
  induction drops with
  | nil => intro i p _ _ _ h; exact h rfl
  | cons d r ih =>
    intro i p hok hs hp _
    rw [deferAll]
    have hlen := addPending_length (stack i) p d (hok d List.mem_cons_self).1
      (hs 0 d rfl)
    have hloc : (addPending (stack i) p d).loc = p.loc + 16 + 4 + 16 * d.trees.length := rfl
    apply ih
    · exact fun x hx => hok x (List.mem_cons_of_mem _ hx)
    · intro j x hx
      have := hs (j + 1) x (by simpa using hx)
      rw [← this]
      congr 2
      omega
    · rw [hlen, hloc]
      omega
    · intro _
      rw [Short, hlen, hloc]
      omega

theorem fileRead_some {f : List Byte} {off n : Nat} {b : List Byte} (hn : n ≠ 0)
    (h : fileRead f off n = some b) : off + n ≤ f.length := by
  rw [fileRead] at h
  by_cases h1 : off + n ≤ f.length
  · exact h1
  · rw [if_neg h1, if_neg hn] at h
    cases h

theorem checkLoop_fatal (f : List Byte) (maxOff : Nat) (hf : f.length < maxOff) :
    ∀ (fuel off : Nat) (rem : List (List Byte)), off < maxOff → maxOff < fuel + off →
    (checkLoop f maxOff fuel off rem).2 = true := by
  intro fuel
  induction fuel with
  | zero => intro off rem h1 h2; omega
  | succ fuel ih =>
    intro off rem h1 h2
    rw [checkLoop, if_pos h1]
    cases e1 : fileRead f off 16 with
    | none => rfl
    | some _ =>
      dsimp only
      cases e2 : fileRead f (off + 16) 4 with
      | none => rfl
      | some nb =>
        dsimp only
        have := fileRead_some (by decide) e2
        cases e3 : fileRead f (off + 20) (16 * bytesNat nb) with
        | none => rfl
        | some tb => exact ih _ _ (by omega) (by omega)

/-- Whatever is deferred, the run after the backup stops with `FATAL`, and the list stays
as it is, so that each later run stops too. -/
theorem C32_always_fatal (drops : List Drop) (hne : drops ≠ []) (hok : ∀ d ∈ drops, d.Ok)
    (stack : Nat → List Byte)
    (hs : ∀ (i : Nat) (d : Drop), drops[i]? = some d →
      (stack i).length = 16 * d.trees.length) :
    let p := deferAll stack 0 empty drops
    (checkPending false p).fatal = true ∧ (checkPending false p).pending = p := by
  intro p
  have hsh : Short p := deferAll_short stack drops 0 empty hok
    (by intro j d h; rw [Nat.zero_add]; exact hs j d h) (by decide) (fun h => absurd h hne)
  have hloc : p.loc ≠ 0 := by
    rw [Short] at hsh
    omega
  have hfatal := checkLoop_fatal p.file p.loc hsh (p.loc + 1) 0 [] (by omega) (by omega)
  have hcond : (false || p.loc == 0) = false := by simp [hloc]
  constructor
  · rw [checkPending, hcond]
    exact hfatal
  · rw [checkPending, hcond]
    simp only [Bool.false_eq_true, if_false]
    rw [hfatal]
    rfl

/-- **C32 does not hold**: one drop of a relation with one tree. -/
theorem C32_violated : ¬ C32 := by
  intro h
  obtain ⟨stack, hs, _, hf, _⟩ := h [⟨List.replicate 16 1, [List.replicate 16 2]⟩] (by
    intro d hd
    have := List.mem_singleton.1 hd
    subst this
    refine ⟨rfl, ?_, by decide⟩
    intro t ht
    have := List.mem_singleton.1 ht
    subst this
    rfl)
  have := (C32_always_fatal [⟨List.replicate 16 1, [List.replicate 16 2]⟩] (by simp) (by
    intro d hd
    have := List.mem_singleton.1 hd
    subst this
    refine ⟨rfl, ?_, by decide⟩
    intro t ht
    have := List.mem_singleton.1 ht
    subst this
    rfl) stack hs).1
  rw [this] at hf
  cases hf

/-- **C32**, the part that holds: while a backup runs nothing is removed and the list is
kept, and if nothing was deferred nothing is removed.  Missing: that deferred drops are
carried out (see `C32_violated`). -/
theorem C32_partial (stack : Nat → List Byte) (drops : List Drop) :
    (let p := deferAll stack 0 empty drops
     (checkPending true p).removed = [] ∧ (checkPending true p).fatal = false ∧
       (checkPending true p).pending = p) ∧
    (checkPending false empty).removed = [] ∧ (checkPending false empty).fatal = false :=
  ⟨⟨rfl, rfl, rfl⟩, rfl, rfl⟩

/-- The example of `C32_violated`, step by step: the file is only the sixteen bytes of the
stack, the location is 36. -/
theorem case32 :
    (deferAll (fun _ => List.replicate 16 7) 0 empty
      [⟨List.replicate 16 1, [List.replicate 16 2]⟩]).file = List.replicate 16 7 ∧
    (deferAll (fun _ => List.replicate 16 7) 0 empty
      [⟨List.replicate 16 1, [List.replicate 16 2]⟩]).loc = 36 := by
  decide

end Verif.Relnode
