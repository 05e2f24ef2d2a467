import Verif.S3Headers.Spec

/-!
# The invariant of the cache of the headers
-/

namespace Verif.S3Headers

open Verif.S3Parts (Part Status)

@[simp] theorem set_same {α : Type} (f : Nat → α) (x : Nat) (a : α) : set f x a x = a := by simp [set]
theorem set_other {α : Type} (f : Nat → α) {x y : Nat} (a : α) (h : y ≠ x) : set f x a y = f y := by simp [set, h]

/-- Is the count odd during the job? -/
def Job.odd : Job → Nat
  | .swap _ => 1
  | _ => 0

/-- Is the job before the change of the tags, under the lock of the group? -/
def Job.pre : Job → Option (Option Nat)
  | .bump new => some new
  | .swap new => some new
  | _ => none

/-- Does word `j` belong to the tag (or to the shadow tag)? -/
def Job.own (j : Nat) : Job → Bool
  | .rdf => false
  | .exch _ _ k _ _ => decide (j < k)
  | _ => true

/-- Is there no shadow tag? -/
def Job.early : Job → Bool
  | .rdf => false
  | .exch _ _ _ _ _ => false
  | .fin => false
  | _ => true

/-- Is word `j` about to be written to the file? -/
def Job.syncing (j : Nat) : Job → Prop
  | .sync k _ true => j < k
  | _ => False

/-- Is the header in the buffer? -/
def cached (b : Buf) (t : Nat) : Prop := b.tag = some t ∨ b.shadow = some t

/-- What holds of the local variables of a job; `sp`: the words of all headers, `fv`: those in the files. -/
def JInv (m : Nat) (sp fv : Nat → Nat → Part) (b : Buf) : Job → Prop
  | .rdf => ∀ t, b.tag = some t → ∀ j, j < m → fv t j = sp t j
  | .exch nv nd k old d => k ≤ m ∧
      (∀ t, b.tag = some t → ∀ j, j < m → k ≤ j → nv j = sp t j ∧ (nd = false → fv t j = nv j)) ∧
      (∀ t, b.shadow = some t → ∀ j, j < k → old j = sp t j ∧ (d = false → fv t j = old j))
  | .fin => ∀ t, b.shadow = some t → ∀ j, j < m → fv t j = sp t j
  | .sync k old _ => k ≤ m ∧ ∀ j, j < k → (b.cell j).dirty = false → (b.cell j).val = old j
  | _ => True

/-- What holds of a buffer. -/
structure BInv (m : Nat) (sp fv : Nat → Nat → Part) (b : Buf) : Prop where
  par : b.cnt % 2 = b.job.odd
  ccnt : ∀ j, j < m → (b.cell j).cnt % 2 = 0 ∧ (b.cell j).cnt ≤ b.cnt ∧ ((b.cell j).cnt = b.cnt → (b.cell j).tag = b.tag)
  cval : ∀ j, j < m → ∀ t, (b.cell j).tag = some t → (b.cell j).val = sp t j ∧
    ((b.cell j).dirty = false → fv t j = (b.cell j).val ∨ b.job.syncing j)
  ctag : ∀ j, j < m → (b.cell j).tag = if b.job.own j then b.tag else b.shadow
  shad : b.job.early = true → b.shadow = none
  diff : ∀ t, b.shadow = some t → b.tag ≠ some t
  loc : JInv m sp fv b b.job

/-- What holds of a process that reads. -/
def RInv (P : Par) (buf : Nat → Buf) : Rd → Prop
  | .idle => True
  | .cnt _ i _ v c => v < P.n ∧ i < P.m ∧ c ≤ (buf v).cnt
  | .tag t i _ v c => v < P.n ∧ i < P.m ∧ c ≤ (buf v).cnt ∧ (c = (buf v).cnt → c % 2 = 0 → (buf v).tag = some t)
  | .chk t i _ v c => v < P.n ∧ i < P.m ∧ c ≤ (buf v).cnt ∧ (c = (buf v).cnt → c % 2 = 0 → (buf v).tag = some t) ∧
      (((buf v).cell i).cnt = c → ((buf v).cell i).tag = some t)
  | .xchg t i _ _ v c _ => v < P.n ∧ i < P.m ∧ c ≤ (buf v).cnt ∧ (c = (buf v).cnt → c % 2 = 0 → (buf v).tag = some t) ∧
      (((buf v).cell i).cnt = c → ((buf v).cell i).tag = some t)

/-- What holds of the holder of the lock of the group. -/
def GInv (P : Par) (buf : Nat → Buf) : Grp → Prop
  | .free => True
  | .scan t u => u ≤ P.n ∧ ∀ x, x < u → ¬ cached (buf x) t
  | .want v => v < P.n
  | .chg v => v < P.n ∧ (buf v).job.pre.isSome = true ∧ ∀ t, (buf v).job.pre = some (some t) → ∀ u, u < P.n → ¬ cached (buf u) t

/-- The invariant, apart from the processes that read. -/
structure Inv (P : Par) (s0 : Nat → Nat → Part) (w : World) : Prop where
  bufs : ∀ v, v < P.n → BInv P.m (after P.fresh s0 w.log) (fileVal P w.file) (w.buf v)
  uniq : ∀ u v t, u < P.n → v < P.n → cached (w.buf u) t → cached (w.buf v) t → u = v
  file : ∀ t, (∀ v, v < P.n → ¬ cached (w.buf v) t) → ∀ j, j < P.m → fileVal P w.file t j = after P.fresh s0 w.log t j
  grp : GInv P w.buf w.grp
  pre : ∀ v, v < P.n → (w.buf v).job.pre.isSome = true → w.grp = .chg v
  rds : ∀ p, RInv P w.buf (w.rd p)
  leg : legal P.m P.fresh s0 w.log

/-- The invariant of a buffer depends on the words of its headers only. -/
theorem BInv.frame {m : Nat} {sp fv sp' fv' : Nat → Nat → Part} {b : Buf} (h : BInv m sp fv b)
    (h1 : ∀ t, cached b t → sp' t = sp t) (h2 : ∀ t, cached b t → fv' t = fv t) : BInv m sp' fv' b := by
  refine ⟨h.par, h.ccnt, ?_, h.ctag, h.shad, h.diff, ?_⟩
  · intro j hj t ht
    have hc : cached b t := by
      have := h.ctag j hj
      rw [ht] at this
      split at this
      · exact Or.inl this.symm
      · exact Or.inr this.symm
    rw [h1 t hc, h2 t hc]
    exact h.cval j hj t ht
  · have hl := h.loc
    cases hj : b.job <;> rw [hj] at hl <;> simp only [JInv] at hl ⊢
    · intro t ht j hj; rw [h1 t (Or.inl ht), h2 t (Or.inl ht)]; exact hl t ht j hj
    · refine ⟨hl.1, ?_, ?_⟩
      · intro t ht j hj hk; rw [h1 t (Or.inl ht), h2 t (Or.inl ht)]; exact hl.2.1 t ht j hj hk
      · intro t ht j hj; rw [h1 t (Or.inr ht), h2 t (Or.inr ht)]; exact hl.2.2 t ht j hj
    · intro t ht j hj; rw [h1 t (Or.inr ht), h2 t (Or.inr ht)]; exact hl t ht j hj
    · exact hl

/-- How a buffer may change under the eyes of the processes that read. -/
structure Mono (m : Nat) (b b' : Buf) : Prop where
  cnt : b.cnt ≤ b'.cnt
  tag : b'.cnt = b.cnt → b'.tag = b.tag
  cell : ∀ i, i < m → ((b'.cell i).cnt = (b.cell i).cnt ∧ (b'.cell i).tag = (b.cell i).tag) ∨
    ((b'.cell i).cnt = b.cnt ∧ (b'.cell i).tag = b.tag ∧ b.cnt % 2 = 0)

theorem Mono.rds {P : Par} {buf : Nat → Buf} {v : Nat} {b' : Buf} (h : Mono P.m (buf v) b') {r : Rd}
    (hr : RInv P buf r) : RInv P (set buf v b') r := by
  have key : ∀ {t i u c : Nat}, i < P.m → c ≤ (buf u).cnt → (c = (buf u).cnt → c % 2 = 0 → (buf u).tag = some t) →
      c ≤ (set buf v b' u).cnt ∧ (c = (set buf v b' u).cnt → c % 2 = 0 → (set buf v b' u).tag = some t) ∧
      ((((buf u).cell i).cnt = c → ((buf u).cell i).tag = some t) →
        ((set buf v b' u).cell i).cnt = c → ((set buf v b' u).cell i).tag = some t) := by
    intro t i u c hi h1 h2
    by_cases hu : u = v
    · subst hu
      simp only [set_same]
      have a := h.cnt
      have b := h.tag
      have d := h.cell i hi
      refine ⟨by omega, ?_, ?_⟩
      · intro e ev
        have : b'.cnt = (buf u).cnt := by omega
        rw [b this]; exact h2 (by omega) ev
      · intro hc e
        rcases d with ⟨d1, d2⟩ | ⟨d1, d2, d3⟩
        · rw [d2]; exact hc (by omega)
        · rw [d2]; exact h2 (by omega) (by omega)
    · rw [set_other buf b' hu]
      exact ⟨h1, h2, fun h => h⟩
  cases r with
  | idle => trivial
  | cnt t i op u c =>
    refine ⟨hr.1, hr.2.1, ?_⟩
    by_cases hu : u = v
    · subst hu; simp only [set_same]; exact Nat.le_trans hr.2.2 h.cnt
    · rw [set_other buf b' hu]; exact hr.2.2
  | tag t i op u c =>
    obtain ⟨a, b, c1, d⟩ := hr
    exact ⟨a, b, (key b c1 d).1, (key b c1 d).2.1⟩
  | chk t i op u c =>
    obtain ⟨a, b, c1, d, e⟩ := hr
    exact ⟨a, b, (key b c1 d).1, (key b c1 d).2.1, (key b c1 d).2.2 e⟩
  | xchg t i o n u c f =>
    obtain ⟨a, b, c1, d, e⟩ := hr
    exact ⟨a, b, (key b c1 d).1, (key b c1 d).2.1, (key b c1 d).2.2 e⟩

/-- A change of one buffer, of the words and files of its headers, of one process that reads, and of the lock of the
group. -/
theorem Inv.change {P : Par} {s0 : Nat → Nat → Part} {w w' : World} {v : Nat} {b' : Buf} (h : Inv P s0 w) (hv : v < P.n)
    (hbuf : w'.buf = set w.buf v b')
    (hsp : ∀ t, ¬ cached (w.buf v) t → after P.fresh s0 w'.log t = after P.fresh s0 w.log t)
    (hfv : ∀ t, ¬ cached (w.buf v) t → fileVal P w'.file t = fileVal P w.file t)
    (hB : BInv P.m (after P.fresh s0 w'.log) (fileVal P w'.file) b')
    (hc : ∀ t, cached b' t → cached (w.buf v) t ∨ ∀ u, u < P.n → ¬ cached (w.buf u) t)
    (hf : ∀ t, cached (w.buf v) t → ¬ cached b' t → ∀ j, j < P.m → fileVal P w'.file t j = after P.fresh s0 w'.log t j)
    (hg : GInv P w'.buf w'.grp)
    (hp : ∀ u, u < P.n → (w'.buf u).job.pre.isSome = true → w'.grp = .chg u)
    (hm : Mono P.m (w.buf v) b')
    (hr : ∀ p, w'.rd p = w.rd p ∨ w'.rd p = .idle)
    (hl : legal P.m P.fresh s0 w'.log) : Inv P s0 w' := by
  refine ⟨?_, ?_, ?_, hg, hp, ?_, hl⟩
  · intro u hu
    rw [hbuf]
    by_cases e : u = v
    · subst e; rw [set_same]; exact hB
    · rw [set_other _ _ e]
      refine (h.bufs u hu).frame ?_ ?_
      · intro t ht; exact hsp t (fun hn => e (h.uniq u v t hu hv ht hn))
      · intro t ht; exact hfv t (fun hn => e (h.uniq u v t hu hv ht hn))
  · intro x y t hx hy cx cy
    rw [hbuf] at cx cy
    by_cases ex : x = v
    · by_cases ey : y = v
      · omega
      · subst ex
        rw [set_same] at cx
        rw [set_other _ _ ey] at cy
        rcases hc t cx with a | a
        · exact h.uniq _ _ t hx hy a cy
        · exact absurd cy (a y hy)
    · rw [set_other _ _ ex] at cx
      by_cases ey : y = v
      · subst ey
        rw [set_same] at cy
        rcases hc t cy with a | a
        · exact h.uniq _ _ t hx hy cx a
        · exact absurd cx (a x hx)
      · rw [set_other _ _ ey] at cy
        exact h.uniq _ _ t hx hy cx cy
  · intro t ht j hj
    by_cases cv : cached (w.buf v) t
    · refine hf t cv ?_ j hj
      have := ht v hv
      rw [hbuf, set_same] at this
      exact this
    · rw [hsp t cv, hfv t cv]
      refine h.file t ?_ j hj
      intro u hu cu
      by_cases e : u = v
      · subst e; exact cv cu
      · have := ht u hu
        rw [hbuf, set_other _ _ e] at this
        exact this cu
  · intro p
    rw [hbuf]
    rcases hr p with e | e
    · rw [e]; exact hm.rds (h.rds p)
    · rw [e]; trivial

/-- The group's part, if the lock of the group is not concerned and no header comes into the buffer. -/
theorem GInv.keep {P : Par} {buf : Nat → Buf} {v : Nat} {b' : Buf} {g : Grp} (h : GInv P buf g)
    (hc : ∀ t, cached b' t → cached (buf v) t) (hj : (buf v).job.pre = b'.job.pre) : GInv P (set buf v b') g := by
  have key : ∀ u t, cached (set buf v b' u) t → cached (buf u) t := by
    intro u t hu
    by_cases e : u = v
    · subst e; rw [set_same] at hu; exact hc t hu
    · rw [set_other _ _ e] at hu; exact hu
  have kj : ∀ u, (set buf v b' u).job.pre = (buf u).job.pre := by
    intro u
    by_cases e : u = v
    · subst e; rw [set_same, hj]
    · rw [set_other _ _ e]
  cases g with
  | free => trivial
  | scan t u => exact ⟨h.1, fun x hx hn => h.2 x hx (key x t hn)⟩
  | want u => exact h
  | chg u =>
    refine ⟨h.1, ?_, ?_⟩
    · rw [kj]; exact h.2.1
    · intro t ht x hx hn; rw [kj] at ht; exact h.2.2 t ht x hx (key x t hn)

theorem preKeep {P : Par} {buf : Nat → Buf} {v : Nat} {b' : Buf} {g : Grp}
    (h : ∀ u, u < P.n → (buf u).job.pre.isSome = true → g = .chg u) (hj : (buf v).job.pre = b'.job.pre) :
    ∀ u, u < P.n → (set buf v b' u).job.pre.isSome = true → g = .chg u := by
  intro u hu hs
  by_cases e : u = v
  · subst e; rw [set_same, ← hj] at hs; exact h u hu hs
  · rw [set_other _ _ e] at hs; exact h u hu hs

end Verif.S3Headers
