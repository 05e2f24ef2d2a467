import Verif.OxidMap.Violations

/-!
# The checkpoint of the map of statuses (property C51)

`fsync_xidmap_range`, with nothing else going on.  The checkpointer calls it for the ids from
`runXmin` at its start to `nextXid` (`src/checkpoint/checkpoint.c:1756`, `1906`, `1937-1939`).
-/

set_option linter.unusedVariables false

namespace Verif.OxidMap

variable {c : Cfg} {s : St}

/-! ## Model -/

/-- The page as assembled (`src/transam/oxid.c:1154-1191`): what is below `writtenXmin` from
the files, the rest from the ring. -/
def assembled (c : Cfg) (s : St) (x : Nat) : Csn :=
  if x < s.wr then s.file x else s.ring (x % c.size)

/-- One page of `flush_dirty_xidsmap_range` (`src/transam/oxid.c:1141-1198`). -/
def flushPage (c : Cfg) (s : St) (pg : Nat) : St :=
  if (pg + 1) * c.page ≤ s.wr then s
  else if s.bits (pageIndex c (pg * c.page)) = false then s
  else
    { s with
      bits := upd s.bits (pageIndex c (pg * c.page)) false
      file := setPage c s.file pg (assembled c s)
      fdirty := upd s.fdirty pg false
      disk := setPage c s.disk pg (assembled c s) }

/-- Pages from `pg` on. -/
def flushPages (c : Cfg) : Nat → St → Nat → St
  | 0, s, _ => s
  | n + 1, s, pg => flushPages c n (flushPage c s pg) (pg + 1)

/-- `flush_dirty_xidsmap_range` (`src/transam/oxid.c:1078-1203`).  The size of the ring is a
multiple of a page (`src/orioledb.c:1270-1273`). -/
def flushRange (c : Cfg) (s : St) (xmin xmax : Nat) : St :=
  let xmin := max xmin s.wr
  if xmax ≤ xmin then s
  else
    let first := xmin / c.page
    let n := (xmax + c.page - 1) / c.page - first
    flushPages c (if n * c.page > c.size then c.size / c.page else n) s first

/-- `o_buffers_sync` (`src/utils/o_buffers.c:476-562`): dirty buffers of the range are written. -/
def syncRange (c : Cfg) (s : St) (xmin xmax : Nat) : St :=
  let last := if xmax % c.page = 0 then xmax / c.page else xmax / c.page + 1
  let hit : Nat → Bool := fun pg => s.fdirty pg && decide (xmin / c.page ≤ pg) && decide (pg < last)
  { s with
    disk := fun x => if hit (x / c.page) then s.file x else s.disk x
    fdirty := fun pg => if hit pg then false else s.fdirty pg }

/-- `fsync_xidmap_range` (`src/transam/oxid.c:1208-1218`). -/
def fsyncRange (c : Cfg) (s : St) (xmin xmax : Nat) : St :=
  syncRange c (flushRange c s xmin xmax) xmin xmax

/-! ## Spec -/

/-- Where a status is found with nothing going on. -/
def found (c : Cfg) (s : St) (x : Nat) : Csn :=
  if x < s.wr then s.file x else s.ring (x % c.size)

/-- C51 about a state: after the checkpoint, the disk has the statuses of the range. -/
def C51 (c : Cfg) (s : St) : Prop :=
  ∀ x, s.run ≤ x → x < s.next → (fsyncRange c s s.run s.next).disk x = found c s x

/-- Dirty marks are right: what differs is marked. -/
structure Marked (c : Cfg) (s : St) : Prop where
  ring : ∀ x, s.wr ≤ x → x < s.next →
    (s.disk x = s.ring (x % c.size) ∧ s.file x = s.ring (x % c.size)) ∨
    s.bits (pageIndex c x) = true
  file : ∀ x, s.run ≤ x → x < s.wr → s.file x = s.disk x ∨ s.fdirty (x / c.page) = true

/-! ## Proofs -/

theorem flushPage_frame (pg : Nat) :
    (flushPage c s pg).wr = s.wr ∧ (flushPage c s pg).ring = s.ring ∧
    (flushPage c s pg).next = s.next ∧ (flushPage c s pg).run = s.run := by
  unfold flushPage
  split
  · exact ⟨rfl, rfl, rfl, rfl⟩
  · split <;> exact ⟨rfl, rfl, rfl, rfl⟩

/-- What has been flushed, and what is still to be flushed. -/
structure Flushing (c : Cfg) (s0 s : St) (first pg : Nat) : Prop where
  wr : s.wr = s0.wr
  ring : s.ring = s0.ring
  file : ∀ x, x < s.wr → s.file x = s0.file x
  done : ∀ x, s.wr ≤ x → x < s0.next → first ≤ x / c.page → x / c.page < pg →
    s.disk x = s.ring (x % c.size) ∧ s.file x = s.ring (x % c.size)
  todo : ∀ x, s.wr ≤ x → x < s0.next → pg ≤ x / c.page →
    (s.disk x = s.ring (x % c.size) ∧ s.file x = s.ring (x % c.size)) ∨
    s.bits (pageIndex c x) = true
  dirty : ∀ x, s0.run ≤ x → x < s.wr → s.file x = s.disk x ∨ s.fdirty (x / c.page) = true

theorem pageIndex_page {x : Nat} (hd : c.size % c.page = 0) :
    pageIndex c x = pageIndex c (x / c.page * c.page) := by
  have hn : 0 < c.page := c.hpage
  have hs : 0 < c.size := by have := c.hsize; omega
  unfold pageIndex
  have hq : c.page * (c.size / c.page) = c.size := by
    have := Nat.div_add_mod c.size c.page
    omega
  rw [← hq, Nat.mod_mul, Nat.mod_mul, Nat.mul_mod_left, Nat.zero_add,
    Nat.mul_div_cancel _ hn, Nat.mul_div_cancel_left _ hn]
  rw [Nat.add_mul_div_left _ _ hn, Nat.div_eq_of_lt (Nat.mod_lt _ hn), Nat.zero_add]

/-- Different pages of one window have different bits. -/
theorem pageIndex_inj {a b w : Nat} (hd : c.size % c.page = 0) (ha1 : w ≤ a)
    (ha2 : a < w + c.size / c.page) (hb1 : w ≤ b) (hb2 : b < w + c.size / c.page)
    (h : pageIndex c (a * c.page) = pageIndex c (b * c.page)) : a = b := by
  have hn : 0 < c.page := c.hpage
  have hq : c.page * (c.size / c.page) = c.size := by
    have := Nat.div_add_mod c.size c.page
    omega
  have hpos : 0 < c.size / c.page := by omega
  have key : ∀ a, pageIndex c (a * c.page) = a % (c.size / c.page) := by
    intro a
    unfold pageIndex
    rw [← hq, Nat.mod_mul, Nat.mul_mod_left, Nat.zero_add, Nat.mul_div_cancel _ hn,
      Nat.mul_div_cancel_left _ hn, Nat.mul_div_cancel_left _ hn]
  rw [key, key] at h
  exact slot_inj hpos ha1 ha2 hb1 hb2 h

theorem Flushing.page {s0 : St} {first pg : Nat} (h : Flushing c s0 s first pg)
    (hd : c.size % c.page = 0) (hpg : first ≤ pg)
    (hwin : s0.next ≤ first * c.page + c.size) (hin : pg < first + c.size / c.page) :
    Flushing c s0 (flushPage c s pg) first (pg + 1) := by
  have hn : 0 < c.page := c.hpage
  have hq : c.page * (c.size / c.page) = c.size := by
    have := Nat.div_add_mod c.size c.page
    omega
  have hxw : ∀ x, x < s0.next → x / c.page < first + c.size / c.page := by
    intro x hx
    apply Nat.div_lt_of_lt_mul
    rw [Nat.mul_add, hq, Nat.mul_comm]
    omega
  unfold flushPage
  split
  · rename_i hlow
    refine ⟨h.wr, h.ring, h.file, ?_, fun x h1 h2 h3 => h.todo x h1 h2 (by omega), h.dirty⟩
    intro x h1 h2 h3 h4
    rcases Nat.lt_or_ge (x / c.page) pg with h5 | h5
    · exact h.done x h1 h2 h3 h5
    · have := page_lt hn (show x / c.page = pg by omega) hlow
      omega
  · split
    · rename_i hlow hbit
      refine ⟨h.wr, h.ring, h.file, ?_, fun x h1 h2 h3 => h.todo x h1 h2 (by omega), h.dirty⟩
      intro x h1 h2 h3 h4
      rcases Nat.lt_or_ge (x / c.page) pg with h5 | h5
      · exact h.done x h1 h2 h3 h5
      · have e : x / c.page = pg := by omega
        rcases h.todo x h1 h2 h5 with h6 | h6
        · exact h6
        · rw [pageIndex_page hd, e, hbit] at h6
          cases h6
    · rename_i hlow hbit
      refine ⟨h.wr, h.ring, ?_, ?_, ?_, ?_⟩
      · intro x hx
        have hx' : x < s.wr := hx
        show setPage c s.file pg (assembled c s) x = s0.file x
        rw [setPage, assembled, if_pos hx']
        by_cases e : x / c.page = pg
        · rw [if_pos e]
          exact h.file x hx
        · rw [if_neg e]
          exact h.file x hx
      · intro x h1 h2 h3 h4
        have h1' : s.wr ≤ x := h1
        show setPage c s.disk pg (assembled c s) x = s.ring (x % c.size) ∧
          setPage c s.file pg (assembled c s) x = s.ring (x % c.size)
        rw [setPage, setPage, assembled, if_neg (Nat.not_lt.2 h1')]
        by_cases e : x / c.page = pg
        · rw [if_pos e, if_pos e]
          exact ⟨rfl, rfl⟩
        · rw [if_neg e, if_neg e]
          exact h.done x h1 h2 h3 (by omega)
      · intro x h1 h2 h3
        have e : x / c.page ≠ pg := by omega
        show (setPage c s.disk pg (assembled c s) x = s.ring (x % c.size) ∧
          setPage c s.file pg (assembled c s) x = s.ring (x % c.size)) ∨
          upd s.bits (pageIndex c (pg * c.page)) false (pageIndex c x) = true
        rw [setPage, setPage, if_neg e, if_neg e]
        have hne : pageIndex c x ≠ pageIndex c (pg * c.page) := by
          rw [pageIndex_page hd]
          intro e'
          exact e (pageIndex_inj hd (w := first) (by omega) (hxw x h2) hpg hin e')
        rw [upd_other hne]
        exact h.todo x h1 h2 (by omega)
      · intro x h1 h2
        have h2' : x < s.wr := h2
        show setPage c s.file pg (assembled c s) x = setPage c s.disk pg (assembled c s) x ∨
          upd s.fdirty pg false (x / c.page) = true
        by_cases e : x / c.page = pg
        · exact Or.inl (by rw [setPage, setPage, if_pos e, if_pos e])
        · rw [setPage, setPage, if_neg e, if_neg e, upd_other e]
          exact h.dirty x h1 h2

theorem Flushing.pages {s0 : St} {first : Nat} (hd : c.size % c.page = 0)
    (hwin : s0.next ≤ first * c.page + c.size) (n : Nat) :
    ∀ (s : St) (pg : Nat), Flushing c s0 s first pg → first ≤ pg →
      pg + n ≤ first + c.size / c.page → Flushing c s0 (flushPages c n s pg) first (pg + n) := by
  induction n with
  | zero => exact fun s pg h _ _ => h
  | succ n ih =>
    intro s pg h h1 h2
    have := ih (flushPage c s pg) (pg + 1) (h.page hd h1 hwin (by omega)) (by omega) (by omega)
    rw [flushPages, show pg + (n + 1) = pg + 1 + n by omega]
    exact this

theorem ceil_page {n x y : Nat} (hn : 0 < n) (h : x < y) : x / n < (y + n - 1) / n := by
  have h1 : (x + n) / n ≤ (y + n - 1) / n := Nat.div_le_div_right (by omega)
  rw [Nat.add_div_right x hn] at h1
  omega

/-- C51 for a state whose dirty marks are right, when the ids in the ring do not reach the
page that shares the bit of the page of `writtenXmin`.  Missing: when they do, that page is
not written (`C51_violated`). -/
theorem C51_partial (hd : c.size % c.page = 0) (hm : Marked c s) (hrn : s.run ≤ s.next)
    (hwn : s.wr ≤ s.next) (hwin : s.next ≤ s.wr / c.page * c.page + c.size) : C51 c s := by
  have hn : 0 < c.page := c.hpage
  have hq : c.page * (c.size / c.page) = c.size := by
    have := Nat.div_add_mod c.size c.page
    omega
  have hmono : s.wr / c.page ≤ max s.run s.wr / c.page := Nat.div_le_div_right (by omega)
  have hmono2 := Nat.mul_le_mul_right c.page hmono
  have hwin' : s.next ≤ max s.run s.wr / c.page * c.page + c.size := by omega
  -- after the flush
  have hfl : ∃ pg, Flushing c s (flushRange c s s.run s.next) (max s.run s.wr / c.page) pg ∧
      ∀ x, s.run ≤ x → s.wr ≤ x → x < s.next → x / c.page < pg := by
    have h0 : Flushing c s s (max s.run s.wr / c.page) (max s.run s.wr / c.page) :=
      ⟨rfl, rfl, fun _ _ => rfl, fun x _ _ h3 h4 => by omega,
        fun x h1 h2 _ => hm.ring x h1 h2, hm.file⟩
    unfold flushRange
    dsimp only
    by_cases hx : s.next ≤ max s.run s.wr
    · rw [if_pos hx]
      exact ⟨_, h0, fun x h1 h2 h3 => by omega⟩
    · rw [if_neg hx]
      generalize hf : max s.run s.wr / c.page = first at *
      have hceil : (s.next + c.page - 1) / c.page ≤ first + c.size / c.page := by
        apply Nat.le_of_lt_succ
        apply Nat.div_lt_of_lt_mul
        rw [Nat.mul_succ, Nat.mul_add, hq, Nat.mul_comm]
        omega
      have hge : first ≤ (s.next + c.page - 1) / c.page := by
        rw [← hf]
        exact Nat.div_le_div_right (by omega)
      generalize hk : (s.next + c.page - 1) / c.page - first = n
      have hle : n ≤ c.size / c.page := by omega
      have hnp : ¬ n * c.page > c.size := by
        have := Nat.mul_le_mul_left c.page hle
        rw [hq, Nat.mul_comm] at this
        omega
      rw [if_neg hnp]
      refine ⟨first + n, Flushing.pages hd hwin' n s first h0 (Nat.le_refl _) (by omega), ?_⟩
      intro x _ _ h3
      have := ceil_page hn h3
      omega
  obtain ⟨pg, h, hpg⟩ := hfl
  intro x h1 h2
  unfold fsyncRange syncRange found
  dsimp only
  generalize flushRange c s s.run s.next = t at h
  have hlast : x / c.page < (if s.next % c.page = 0 then s.next / c.page else s.next / c.page + 1) := by
    split
    · rename_i e
      have := Nat.div_add_mod s.next c.page
      apply Nat.div_lt_of_lt_mul
      omega
    · have := Nat.div_le_div_right (c := c.page) (Nat.le_of_lt h2)
      omega
  have hfirst : s.run / c.page ≤ x / c.page := Nat.div_le_div_right h1
  by_cases hx : x < s.wr
  · rw [if_pos hx, ← h.file x (by rw [h.wr]; exact hx)]
    rcases h.dirty x h1 (by rw [h.wr]; exact hx) with e | e
    · rw [← e]
      simp only [ite_self]
    · simp only [e, hlast, hfirst, decide_true, Bool.and_self, if_true]
  · rw [if_neg hx]
    have := h.done x (by rw [h.wr]; omega) h2 (Nat.div_le_div_right (by omega)) (hpg x h1 (by omega) h2)
    rw [this.1, this.2, h.ring]
    simp only [ite_self]

/-- `Marked`, computed. -/
def marked (c : Cfg) (s : St) : Bool :=
  ((List.range s.next).all fun x =>
    decide (x < s.wr) || decide (s.disk x = s.ring (x % c.size) ∧ s.file x = s.ring (x % c.size)) ||
    s.bits (pageIndex c x)) &&
  (List.range s.wr).all fun x => decide (s.file x = s.disk x) || s.fdirty (x / c.page)

theorem marked_Marked (h : marked c s = true) : Marked c s := by
  simp only [marked, Bool.and_eq_true, List.all_eq_true, List.mem_range, Bool.or_eq_true,
    decide_eq_true_eq] at h
  refine ⟨fun x h1 h2 => ?_, fun x _ h2 => h.2 x h2⟩
  rcases h.1 x h2 with (e | e) | e
  · omega
  · exact Or.inl e
  · exact Or.inr e

set_option maxRecDepth 100000 in
/-- A case: nine transactions have been started in a ring of eight, some statuses are in the
files, some pages are dirty in the cache, and some are in the ring only. -/
theorem C51_case :
    let s := runActs small start life
    marked small s = true ∧ s.run = 4 ∧ s.wr = 4 ∧ s.next = 9 ∧
    s.next ≤ s.wr / small.page * small.page + small.size ∧
    s.disk 6 = .frozen ∧ (fsyncRange small s s.run s.next).disk 6 = .special 0 false ∧
    (fsyncRange small s s.run s.next).disk 8 = .special 2 false := by
  decide

/-- Nine transactions in the small ring, the first two in the files, the last one over. -/
def wrapped : List Act :=
  begins 0 ++ begins 1 ++ begins 2 ++ begins 3 ++ (.drain 9 2 :: gos 9 10) ++ begins 4 ++ begins 5 ++
  begins 6 ++ begins 7 ++ begins 8 ++ ends 8 (.committed 5) 7

set_option maxRecDepth 100000 in
/-- The ids in the ring, 2 to 8, lie in three pages while the ring has two: the third is not
written, and its dirty mark, shared with the first, is taken down.  The disk does not have
the status of transaction 8 (`src/transam/oxid.c:1107-1110`). -/
theorem C51_violated :
    ∃ as, calmRun small start as = true ∧ Marked small (runActs small start as) ∧
      ¬ C51 small (runActs small start as) := by
  refine ⟨wrapped, by decide, marked_Marked (by decide), fun h => ?_⟩
  have h1 := h 8 (by decide) (by decide)
  have h2 : (fsyncRange small (runActs small start wrapped) (runActs small start wrapped).run
    (runActs small start wrapped).next).disk 8 = .frozen := by decide
  have h3 : found small (runActs small start wrapped) 8 = .committed 5 := by decide
  rw [h2, h3] at h1
  cases h1

end Verif.OxidMap
