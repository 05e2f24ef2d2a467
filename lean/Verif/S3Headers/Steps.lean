import Verif.S3Headers.Proofs

/-!
# The invariant is kept by every step
-/

namespace Verif.S3Headers

open Verif.S3Parts (Part Status)

theorem inv_init (P : Par) (f0 : Nat → Option (Nat → Part)) : Inv P (fileVal P f0) (init f0) := by
  refine ⟨?_, ?_, ?_, trivial, ?_, ?_, trivial⟩
  · intro v _
    refine ⟨rfl, ?_, ?_, ?_, fun _ => rfl, ?_, trivial⟩
    · intro j _; exact ⟨rfl, Nat.le_refl _, fun _ => rfl⟩
    · intro j _ t ht; cases ht
    · intro j _; rfl
    · intro t ht; cases ht
  · intro u v t _ _ h _; rcases h with h | h <;> cases h
  · intro t _ j _; rfl
  · intro v _ h; cases h
  · intro p; trivial

/-- A step of a process that reads, without a change of shared memory. -/
theorem Inv.reader {P : Par} {s0 : Nat → Nat → Part} {w : World} (h : Inv P s0 w) (p : Nat) (r : Rd) (l : List Ev)
    (hr : RInv P w.buf r) (hs : after P.fresh s0 l = after P.fresh s0 w.log) (hl : legal P.m P.fresh s0 l) :
    Inv P s0 { w with rd := set w.rd p r, log := l } := by
  refine ⟨?_, h.uniq, ?_, h.grp, h.pre, ?_, hl⟩
  · intro v hv; show BInv _ (after P.fresh s0 l) _ _; rw [hs]; exact h.bufs v hv
  · intro t ht j hj; show _ = after P.fresh s0 l t j; rw [hs]; exact h.file t ht j hj
  · intro q
    show RInv P w.buf (set w.rd p r q)
    by_cases e : q = p
    · subst e; rw [set_same]; exact hr
    · rw [set_other _ _ e]; exact h.rds q

/-- A step that changes the lock of the group only. -/
theorem Inv.group {P : Par} {s0 : Nat → Nat → Part} {w : World} (h : Inv P s0 w) (g : Grp) (hg : GInv P w.buf g)
    (hp : ∀ v, v < P.n → (w.buf v).job.pre.isSome = true → g = .chg v) : Inv P s0 { w with grp := g } :=
  ⟨h.bufs, h.uniq, h.file, hg, hp, h.rds, h.leg⟩

theorem noPre {P : Par} {s0 : Nat → Nat → Part} {w : World} (h : Inv P s0 w) (hg : ∀ v, w.grp ≠ .chg v) :
    ∀ v, v < P.n → (w.buf v).job.pre.isSome = true → False :=
  fun v hv hs => hg v (h.pre v hv hs)

/-- A new job of a free buffer. -/
theorem BInv.start {m : Nat} {sp fv : Nat → Nat → Part} {b : Buf} (h : BInv m sp fv b) (hj : b.job = .free) (j : Job)
    (h1 : j.odd = 0) (h2 : ∀ i, j.own i = true) (h3 : JInv m sp fv { b with job := j } j) :
    BInv m sp fv { b with job := j } := by
  refine ⟨?_, h.ccnt, ?_, ?_, ?_, h.diff, h3⟩
  · have := h.par; rw [hj] at this; show b.cnt % 2 = j.odd; rw [h1]; exact this
  · intro i hi t ht
    refine ⟨(h.cval i hi t ht).1, fun hd => Or.inl ?_⟩
    rcases (h.cval i hi t ht).2 hd with a | a
    · exact a
    · rw [hj] at a; exact a.elim
  · intro i hi
    have := h.ctag i hi
    rw [hj] at this
    show (b.cell i).tag = if j.own i then b.tag else b.shadow
    rw [h2 i]; exact this
  · intro _
    have := h.shad
    rw [hj] at this
    exact this rfl

theorem Mono.job {m : Nat} (b : Buf) (j : Job) : Mono m b { b with job := j } :=
  ⟨Nat.le_refl _, fun _ => rfl, fun _ _ => Or.inl ⟨rfl, rfl⟩⟩

/-- `pick`, `lock`: the lock of a buffer is taken to change it. -/
theorem Inv.begin {P : Par} {s0 : Nat → Nat → Part} {w : World} (h : Inv P s0 w) {v : Nat} (hv : v < P.n)
    (hj : (w.buf v).job = .free) (hg : ∀ u, w.grp ≠ .chg u) (new : Option Nat)
    (hn : ∀ t, new = some t → ∀ u, u < P.n → ¬ cached (w.buf u) t) :
    Inv P s0 { w.put v { w.buf v with job := .bump new } with grp := .chg v } := by
  refine h.change (v := v) (b' := { w.buf v with job := .bump new }) hv rfl (fun _ _ => rfl) (fun _ _ => rfl) ?_ (fun t ht => Or.inl ht)
    (fun t ht hx => absurd ht hx) ?_ ?_ (Mono.job _ _) (fun _ => Or.inl rfl) h.leg
  · exact (h.bufs v hv).start hj (.bump new) rfl (fun _ => rfl) trivial
  · refine ⟨hv, ?_, ?_⟩
    · show ((set w.buf v _) v).job.pre.isSome = true
      rw [set_same]; rfl
    · intro t ht u hu
      have e : new = some t := by
        have h' : ((set w.buf v { w.buf v with job := .bump new }) v).job.pre = some (some t) := ht
        rw [set_same] at h'
        exact Option.some.inj h'
      intro hc
      have hc' : cached (set w.buf v { w.buf v with job := .bump new } u) t := hc
      by_cases eu : u = v
      · subst eu; rw [set_same] at hc'; exact hn t e u hu hc'
      · rw [set_other _ _ eu] at hc'; exact hn t e u hu hc'
  · intro u hu hs
    by_cases eu : u = v
    · subst eu; rfl
    · have hs' : ((set w.buf v { w.buf v with job := .bump new }) u).job.pre.isSome = true := hs
      rw [set_other _ _ eu] at hs'
      exact (noPre h hg u hu hs').elim

/-- A step under the lock of a buffer that does not concern the lock of the group, the files or the events. -/
theorem Inv.inner {P : Par} {s0 : Nat → Nat → Part} {w : World} (h : Inv P s0 w) {v : Nat} (hv : v < P.n) (b' : Buf)
    (hB : BInv P.m (after P.fresh s0 w.log) (fileVal P w.file) b')
    (ht : b'.tag = (w.buf v).tag) (hs : b'.shadow = (w.buf v).shadow ∨ b'.shadow = none)
    (hf : b'.shadow ≠ (w.buf v).shadow → ∀ t, (w.buf v).shadow = some t → ∀ j, j < P.m →
      fileVal P w.file t j = after P.fresh s0 w.log t j)
    (hj : (w.buf v).job.pre = b'.job.pre) (hm : Mono P.m (w.buf v) b') : Inv P s0 (w.put v b') := by
  have hc : ∀ t, cached b' t → cached (w.buf v) t := by
    intro t hb
    rcases hb with a | a
    · exact Or.inl (ht ▸ a)
    · rcases hs with e | e
      · exact Or.inr (e ▸ a)
      · rw [e] at a; cases a
  refine h.change (v := v) (b' := b') hv rfl (fun _ _ => rfl) (fun _ _ => rfl) hB (fun t a => Or.inl (hc t a)) ?_
    (h.grp.keep hc hj) (preKeep h.pre hj) hm (fun _ => Or.inl rfl) h.leg
  intro t a na j hjm
  have : b'.shadow ≠ (w.buf v).shadow := by
    intro e
    apply na
    rcases a with a | a
    · exact Or.inl (ht ▸ a)
    · exact Or.inr (e ▸ a)
  rcases a with a | a
  · exact absurd (Or.inl (ht ▸ a)) na
  · exact hf this t a j hjm

theorem inv_swap {P : Par} {s0 : Nat → Nat → Part} {w : World} (h : Inv P s0 w) {v : Nat} (hv : v < P.n)
    {new : Option Nat} (hj : (w.buf v).job = .swap new) :
    Inv P s0 { w.put v { w.buf v with tag := new, shadow := (w.buf v).tag, cnt := (w.buf v).cnt + 1, job := .rdf } with
      grp := .free } := by
  have hb := h.bufs v hv
  have hg : w.grp = .chg v := h.pre v hv (by rw [hj]; rfl)
  have hG := h.grp
  rw [hg] at hG
  have hn : ∀ t, new = some t → ∀ u, u < P.n → ¬ cached (w.buf u) t := by
    intro t e u hu
    exact hG.2.2 t (by rw [hj, e]; rfl) u hu
  have hsh : (w.buf v).shadow = none := hb.shad (by rw [hj]; rfl)
  refine h.change (v := v) (b' := { w.buf v with tag := new, shadow := (w.buf v).tag, cnt := (w.buf v).cnt + 1, job := .rdf })
    hv rfl (fun _ _ => rfl) (fun _ _ => rfl) ?_ ?_ ?_ trivial ?_ ?_ (fun _ => Or.inl rfl) h.leg
  · refine ⟨?_, ?_, ?_, ?_, ?_, ?_, ?_⟩
    · have := hb.par; rw [hj] at this; simp only [Job.odd] at this ⊢; omega
    · intro j hjm
      obtain ⟨a, b, _⟩ := hb.ccnt j hjm
      refine ⟨a, Nat.le_succ_of_le b, fun e => ?_⟩
      simp only at e
      omega
    · intro j hjm t ht
      refine ⟨(hb.cval j hjm t ht).1, fun hd => Or.inl ?_⟩
      rcases (hb.cval j hjm t ht).2 hd with a | a
      · exact a
      · rw [hj] at a; exact a.elim
    · intro j hjm
      have := hb.ctag j hjm
      rw [hj] at this
      simpa [Job.own] using this
    · intro e; cases e
    · intro t ht e
      exact hn t e v hv (Or.inl ht)
    · intro t ht j hjm
      exact h.file t (fun u hu => hn t ht u hu) j hjm
  · intro t ht
    rcases ht with a | a
    · exact Or.inr (hn t a)
    · exact Or.inl (Or.inl a)
  · intro t a na
    rcases a with a | a
    · exact absurd (Or.inr a) na
    · rw [hsh] at a; cases a
  · intro u hu hs
    have hs' : ((set w.buf v { w.buf v with tag := new, shadow := (w.buf v).tag, cnt := (w.buf v).cnt + 1, job := .rdf }) u).job.pre.isSome = true := hs
    by_cases e : u = v
    · subst e; rw [set_same] at hs'; cases hs'
    · rw [set_other _ _ e] at hs'
      have := h.pre u hu hs'
      rw [hg] at this
      exact absurd (Grp.chg.inj this).symm e
  · exact ⟨Nat.le_succ _, fun e => absurd e (by simp only; omega), fun _ _ => Or.inl ⟨rfl, rfl⟩⟩

/-- A word as the compare-and-swap leaves it. -/
theorem inv_done {P : Par} {s0 : Nat → Nat → Part} {w : World} (h : Inv P s0 w) {p t i v c : Nat} {old new : Part} {d : Bool}
    (hr : w.rd p = .xchg t i old new v c d) (h1 : ((w.buf v).cell i).val = old) (h2 : ((w.buf v).cell i).cnt = c) :
    Inv P s0 (((w.put v { w.buf v with cell := set (w.buf v).cell i { (w.buf v).cell i with val := new, dirty := true } }).at p .idle).say (.done t i old new)) := by
  have hR := h.rds p
  rw [hr] at hR
  obtain ⟨hv, hi, _, _, hct⟩ := hR
  have ht := hct h2
  have hb := h.bufs v hv
  have hcv : cached (w.buf v) t := by
    have := hb.ctag i hi
    rw [ht] at this
    split at this
    · exact Or.inl this.symm
    · exact Or.inr this.symm
  have hold := (hb.cval i hi t ht).1
  have hsp : ∀ t', t' ≠ t → after P.fresh s0 (.done t i old new :: w.log) t' = after P.fresh s0 w.log t' := by
    intro t' ne
    funext i'
    simp [after, apply, ne]
  have hspi : ∀ j, j ≠ i → after P.fresh s0 (.done t i old new :: w.log) t j = after P.fresh s0 w.log t j := by
    intro j ne
    simp [after, apply, ne]
  have hcell : ∀ j, j ≠ i → set (w.buf v).cell i { (w.buf v).cell i with val := new, dirty := true } j = (w.buf v).cell j :=
    fun j ne => set_other _ _ ne
  refine h.change (v := v) (b' := { w.buf v with cell := set (w.buf v).cell i { (w.buf v).cell i with val := new, dirty := true } })
    hv rfl (fun t' hn => hsp t' (fun e => hn (e ▸ hcv))) (fun _ _ => rfl) ?_ (fun t a => Or.inl a) (fun t a na => absurd a na)
    (h.grp.keep (fun t a => a) rfl) (preKeep h.pre rfl) ?_ ?_ ?_
  · show BInv P.m (after P.fresh s0 (.done t i old new :: w.log)) (fileVal P w.file) _
    refine ⟨hb.par, ?_, ?_, ?_, hb.shad, hb.diff, ?_⟩
    · intro j hj
      by_cases e : j = i
      · subst e; simp only [set_same]; exact hb.ccnt j hj
      · simp only [hcell j e]; exact hb.ccnt j hj
    · intro j hj t' ht'
      by_cases e : j = i
      · subst e
        simp only [set_same] at ht' ⊢
        rw [ht] at ht'
        cases ht'
        refine ⟨by simp [after, apply], fun hd => by cases hd⟩
      · simp only [hcell j e] at ht' ⊢
        have a := hb.cval j hj t' ht'
        by_cases et : t' = t
        · subst et; rw [hspi j e]; exact a
        · rw [hsp t' et]; exact a
    · intro j hj
      by_cases e : j = i
      · subst e; simp only [set_same]; exact hb.ctag j hj
      · simp only [hcell j e]; exact hb.ctag j hj
    · have hl := hb.loc
      have hown := hb.ctag i hi
      cases hjob : (w.buf v).job with
      | free => trivial
      | bump _ => trivial
      | swap _ => trivial
      | rdf =>
        rw [hjob] at hl hown
        intro t' ht' j hj
        have : t' ≠ t := by
          intro e; subst e
          exact hb.diff t' (by rw [ht] at hown; simpa [Job.own] using hown.symm) ht'
        rw [hsp t' this]; exact hl t' ht' j hj
      | exch nv nd k o dd =>
        rw [hjob] at hl hown
        obtain ⟨l1, l2, l3⟩ := hl
        refine ⟨l1, ?_, ?_⟩
        · intro t' ht' j hj hk
          by_cases et : t' = t
          · subst et
            by_cases ej : j = i
            · subst ej
              have : ¬ j < k := by omega
              rw [ht] at hown
              simp [Job.own, this] at hown
              exact absurd ht' (hb.diff t' hown.symm)
            · rw [hspi j ej]; exact l2 t' ht' j hj hk
          · rw [hsp t' et]; exact l2 t' ht' j hj hk
        · intro t' ht' j hj
          by_cases et : t' = t
          · subst et
            by_cases ej : j = i
            · subst ej
              rw [ht] at hown
              simp [Job.own, hj] at hown
              exact absurd hown.symm (hb.diff t' ht')
            · rw [hspi j ej]; exact l3 t' ht' j hj
          · rw [hsp t' et]; exact l3 t' ht' j hj
      | fin =>
        rw [hjob] at hl hown
        intro t' ht' j hj
        have : t' ≠ t := by
          intro e; subst e
          exact hb.diff t' ht' (by rw [ht] at hown; simpa [Job.own] using hown.symm)
        rw [hsp t' this]; exact hl t' ht' j hj
      | sync k o dd =>
        rw [hjob] at hl
        refine ⟨hl.1, ?_⟩
        intro j hj hd
        by_cases e : j = i
        · subst e; simp only [set_same] at hd; cases hd
        · simp only [hcell j e] at hd ⊢; exact hl.2 j hj hd
  · refine ⟨Nat.le_refl _, fun _ => rfl, ?_⟩
    intro j _
    by_cases e : j = i
    · subst e; exact Or.inl (by simp)
    · exact Or.inl (by simp [hcell j e])
  · intro q
    show set w.rd p .idle q = _ ∨ _
    by_cases e : q = p
    · subst e; exact Or.inr (set_same _ _ _)
    · exact Or.inl (set_other _ _ e)
  · exact ⟨h.leg, by show after P.fresh s0 w.log t i = old; rw [← hold]; exact h1⟩

theorem inv_rdf {P : Par} {s0 : Nat → Nat → Part} {w : World} (h : Inv P s0 w) {v : Nat} (hv : v < P.n)
    (hj : (w.buf v).job = .rdf) (nv : Nat → Part) (nd : Bool)
    (hn : ∀ t, (w.buf v).tag = some t → nv = fileVal P w.file t) :
    Inv P s0 (w.put v { w.buf v with job := .exch nv nd 0 (fun _ => zero) false }) := by
  have hb := h.bufs v hv
  have hl := hb.loc
  rw [hj] at hl
  refine h.inner hv _ ?_ rfl (Or.inl rfl) (fun e => absurd rfl e) (by rw [hj]; rfl) (Mono.job _ _)
  refine ⟨?_, hb.ccnt, ?_, ?_, ?_, hb.diff, ?_⟩
  · have := hb.par; rw [hj] at this; exact this
  · intro j hjm t ht
    refine ⟨(hb.cval j hjm t ht).1, fun hd => Or.inl ?_⟩
    rcases (hb.cval j hjm t ht).2 hd with a | a
    · exact a
    · rw [hj] at a; exact a.elim
  · intro j hjm
    have := hb.ctag j hjm
    rw [hj] at this
    simpa [Job.own] using this
  · intro e; cases e
  · refine ⟨Nat.zero_le _, ?_, ?_⟩
    · intro t ht j hjm _
      rw [hn t ht]
      exact ⟨hl t ht j hjm, fun _ => rfl⟩
    · intro t _ j hj0; exact absurd hj0 (Nat.not_lt_zero j)

theorem inv_exch {P : Par} {s0 : Nat → Nat → Part} {w : World} (h : Inv P s0 w) {v : Nat} (hv : v < P.n)
    {nv old : Nat → Part} {nd d : Bool} {k : Nat} (hj : (w.buf v).job = .exch nv nd k old d) (hk : k < P.m) :
    Inv P s0 (w.put v { w.buf v with
      cell := set (w.buf v).cell k ⟨nv k, (w.buf v).cnt, nd, (w.buf v).tag⟩,
      job := .exch nv nd (k + 1) (set old k ((w.buf v).cell k).val) (d || ((w.buf v).cell k).dirty) }) := by
  have hb := h.bufs v hv
  have hl := hb.loc
  have hpar := hb.par
  rw [hj] at hl hpar
  obtain ⟨l1, l2, l3⟩ := hl
  have hkt := hb.ctag k hk
  rw [hj] at hkt
  simp [Job.own] at hkt
  refine h.inner hv _ ?_ rfl (Or.inl rfl) (fun e => absurd rfl e) (by rw [hj]; rfl) ?_
  · refine ⟨hpar, ?_, ?_, ?_, ?_, hb.diff, ?_⟩
    · intro j hjm
      by_cases e : j = k
      · subst e; simp only [set_same]; exact ⟨hpar, Nat.le_refl _, fun _ => trivial⟩
      · simp only [set_other _ _ e]; exact hb.ccnt j hjm
    · intro j hjm t ht
      by_cases e : j = k
      · subst e
        simp only [set_same] at ht ⊢
        obtain ⟨a, b⟩ := l2 t ht j hjm (Nat.le_refl _)
        exact ⟨a, fun hd => Or.inl (b hd)⟩
      · simp only [set_other _ _ e] at ht ⊢
        refine ⟨(hb.cval j hjm t ht).1, fun hd => Or.inl ?_⟩
        rcases (hb.cval j hjm t ht).2 hd with a | a
        · exact a
        · rw [hj] at a; exact a.elim
    · intro j hjm
      by_cases e : j = k
      · subst e; simp [Job.own]
      · simp only [set_other _ _ e]
        have := hb.ctag j hjm
        rw [hj] at this
        rw [this]
        have e2 : (j < k + 1) = (j < k) := by apply propext; omega
        simp [Job.own, e2]
    · intro e; cases e
    · refine ⟨hk, ?_, ?_⟩
      · intro t ht j hjm hkj
        exact l2 t ht j hjm (by omega)
      · intro t ht j hjk
        by_cases e : j = k
        · subst e
          simp only [set_same]
          obtain ⟨a, b⟩ := hb.cval j hk t (by rw [hkt]; exact ht)
          refine ⟨a, fun hd => ?_⟩
          have hd' : ((w.buf v).cell j).dirty = false := by
            cases hx : ((w.buf v).cell j).dirty
            · rfl
            · rw [hx] at hd; simp at hd
          rcases b hd' with b | b
          · exact b
          · rw [hj] at b; exact b.elim
        · simp only [set_other _ _ e]
          obtain ⟨a, b⟩ := l3 t ht j (by omega)
          refine ⟨a, fun hd => b ?_⟩
          cases d
          · rfl
          · simp at hd
  · refine ⟨Nat.le_refl _, fun _ => rfl, ?_⟩
    intro j hjm
    by_cases e : j = k
    · subst e; exact Or.inr ⟨by simp, by simp, hpar⟩
    · exact Or.inl (by simp [set_other _ _ e])

theorem inv_fin {P : Par} {s0 : Nat → Nat → Part} {w : World} (h : Inv P s0 w) {v : Nat} (hv : v < P.n)
    (hj : (w.buf v).job = .fin) : Inv P s0 (w.put v { w.buf v with shadow := none, job := .free }) := by
  have hb := h.bufs v hv
  have hl := hb.loc
  rw [hj] at hl
  refine h.inner hv _ ?_ rfl (Or.inr rfl) (fun _ t ht j hjm => hl t ht j hjm) (by rw [hj]; rfl)
    ⟨Nat.le_refl _, fun _ => rfl, fun _ _ => Or.inl ⟨rfl, rfl⟩⟩
  refine ⟨?_, hb.ccnt, ?_, ?_, fun _ => rfl, ?_, trivial⟩
  · have := hb.par; rw [hj] at this; exact this
  · intro j hjm t ht
    refine ⟨(hb.cval j hjm t ht).1, fun hd => Or.inl ?_⟩
    rcases (hb.cval j hjm t ht).2 hd with a | a
    · exact a
    · rw [hj] at a; exact a.elim
  · intro j hjm
    have := hb.ctag j hjm
    rw [hj] at this
    exact this
  · intro t ht; cases ht

theorem inv_syncStep {P : Par} {s0 : Nat → Nat → Part} {w : World} (h : Inv P s0 w) {v : Nat} (hv : v < P.n)
    {old : Nat → Part} {d : Bool} {k : Nat} (hj : (w.buf v).job = .sync k old d) (hk : k < P.m) :
    Inv P s0 (w.put v { w.buf v with
      cell := set (w.buf v).cell k { (w.buf v).cell k with dirty := false },
      job := .sync (k + 1) (set old k ((w.buf v).cell k).val) (d || ((w.buf v).cell k).dirty) }) := by
  have hb := h.bufs v hv
  have hl := hb.loc
  have hpar := hb.par
  rw [hj] at hl hpar
  obtain ⟨l1, l2⟩ := hl
  have hsh : (w.buf v).shadow = none := hb.shad (by rw [hj]; rfl)
  refine h.inner hv _ ?_ rfl (Or.inl rfl) (fun e => absurd rfl e) (by rw [hj]; rfl) ?_
  · refine ⟨hpar, ?_, ?_, ?_, fun _ => hsh, hb.diff, ?_⟩
    · intro j hjm
      by_cases e : j = k
      · subst e; simp only [set_same]; exact hb.ccnt j hjm
      · simp only [set_other _ _ e]; exact hb.ccnt j hjm
    · intro j hjm t ht
      by_cases e : j = k
      · subst e
        simp only [set_same] at ht ⊢
        obtain ⟨a, b⟩ := hb.cval j hjm t ht
        refine ⟨a, fun _ => ?_⟩
        cases hx : ((w.buf v).cell j).dirty
        · rcases b hx with b | b
          · exact Or.inl b
          · rw [hj] at b
            cases d
            · exact b.elim
            · exact absurd b (Nat.lt_irrefl j)
        · right
          simp only [Bool.or_true]
          exact Nat.lt_succ_self j
      · simp only [set_other _ _ e] at ht ⊢
        refine ⟨(hb.cval j hjm t ht).1, fun hd => ?_⟩
        rcases (hb.cval j hjm t ht).2 hd with a | a
        · exact Or.inl a
        · rw [hj] at a
          cases d
          · exact a.elim
          · right
            simp only [Bool.true_or]
            exact Nat.lt_succ_of_lt a
    · intro j hjm
      have := hb.ctag j hjm
      rw [hj] at this
      by_cases e : j = k
      · subst e; simp only [set_same]; exact this
      · simp only [set_other _ _ e]; exact this
    · refine ⟨hk, ?_⟩
      intro j hjk
      by_cases e : j = k
      · subst e; simp
      · simp only [set_other _ _ e]; exact l2 j (by omega)
  · refine ⟨Nat.le_refl _, fun _ => rfl, ?_⟩
    intro j hjm
    by_cases e : j = k
    · subst e; exact Or.inl (by simp)
    · exact Or.inl (by simp [set_other _ _ e])

theorem fileVal_other {P : Par} {file : Nat → Option (Nat → Part)} {s t : Nat} {f : Option (Nat → Part)} (h : t ≠ s) :
    fileVal P (set file s f) t = fileVal P file t := by
  funext j; simp [fileVal, set_other _ _ h]

theorem fileVal_some {P : Par} {file : Nat → Option (Nat → Part)} {s : Nat} {f : Nat → Part} :
    fileVal P (set file s (some f)) s = f := by
  funext j; simp [fileVal]

theorem fileVal_none {P : Par} {file : Nat → Option (Nat → Part)} {s : Nat} :
    fileVal P (set file s none) s = P.fresh s := by
  funext j; simp [fileVal]

theorem syncEnd_no {w : World} {v : Nat} {old : Nat → Part} {d : Bool} (h : (w.buf v).tag = none ∨ d = false) :
    syncEnd w v old d = w.put v { w.buf v with job := .free } := by
  simp only [syncEnd]
  split
  · rfl
  · rename_i t ht
    rcases h with h | h
    · rw [ht] at h; cases h
    · simp [h]

theorem syncEnd_yes {w : World} {v t : Nat} {old : Nat → Part} (h : (w.buf v).tag = some t) :
    syncEnd w v old true = { w.put v { w.buf v with job := .free } with file := set w.file t (some old) } := by
  simp only [syncEnd]
  split
  · rename_i ht; rw [ht] at h; cases h
  · rename_i t' ht; rw [ht] at h; cases h; rfl

theorem save_no {P : Par} {w : World} {v size : Nat} {old : Nat → Part} {d : Bool}
    (h : (w.buf v).shadow = none ∨ (d = false ∧ ((w.buf v).tag.isNone && !keepAny size old P.m) = false)) :
    save P w v size old d = w.put v { w.buf v with job := .fin } := by
  simp only [save]
  split
  · rfl
  · rename_i t ht
    rcases h with h | h
    · rw [ht] at h; cases h
    · rw [if_neg (by rw [h.2]; decide), if_neg (by rw [h.1]; decide)]

theorem save_write {P : Par} {w : World} {v s size : Nat} {old : Nat → Part} (hs : (w.buf v).shadow = some s)
    (h : ((w.buf v).tag.isNone && !keepAny size old P.m) = false) :
    save P w v size old true = { w.put v { w.buf v with job := .fin } with file := set w.file s (some old) } := by
  simp only [save]
  split
  · rename_i ht; rw [ht] at hs; cases hs
  · rename_i s' ht
    rw [ht] at hs
    cases hs
    rw [if_neg (by rw [h]; decide), if_pos trivial]

theorem save_unlink {P : Par} {w : World} {v s size : Nat} {old : Nat → Part} {d : Bool} (hs : (w.buf v).shadow = some s)
    (h : ((w.buf v).tag.isNone && !keepAny size old P.m) = true) :
    save P w v size old d =
      { (w.put v { w.buf v with job := .fin }).say (.unlink s size) with file := set w.file s none } := by
  simp only [save]
  split
  · rename_i ht; rw [ht] at hs; cases hs
  · rename_i s' ht
    rw [ht] at hs
    cases hs
    rw [if_pos h]

theorem inv_syncEnd {P : Par} {s0 : Nat → Nat → Part} {w : World} (h : Inv P s0 w) {v : Nat} (hv : v < P.n)
    {old : Nat → Part} {d : Bool} {k : Nat} (hj : (w.buf v).job = .sync k old d) (hk : ¬ k < P.m) :
    Inv P s0 (syncEnd w v old d) := by
  have hb := h.bufs v hv
  have hl := hb.loc
  have hpar := hb.par
  rw [hj] at hl hpar
  obtain ⟨l1, l2⟩ := hl
  have hkm : k = P.m := by omega
  have hsh : (w.buf v).shadow = none := hb.shad (by rw [hj]; rfl)
  -- the buffer afterwards, whatever is in the files, if the clean words are right there
  have mk : ∀ fv : Nat → Nat → Part, (∀ t, (w.buf v).tag = some t → ∀ j, j < P.m → ((w.buf v).cell j).dirty = false →
      fv t j = ((w.buf v).cell j).val) → BInv P.m (after P.fresh s0 w.log) fv { w.buf v with job := .free } := by
    intro fv hfv
    have ct : ∀ j, j < P.m → ((w.buf v).cell j).tag = (w.buf v).tag := by
      intro j hjm; have := hb.ctag j hjm; rw [hj] at this; exact this
    refine ⟨hpar, hb.ccnt, ?_, ct, fun _ => hsh, hb.diff, trivial⟩
    intro j hjm t ht
    exact ⟨(hb.cval j hjm t ht).1, fun hd => Or.inl (hfv t (by rw [← ct j hjm]; exact ht) j hjm hd)⟩
  have ctag : ∀ j, j < P.m → ((w.buf v).cell j).tag = (w.buf v).tag := by
    intro j hjm; have := hb.ctag j hjm; rw [hj] at this; exact this
  rcases Option.eq_none_or_eq_some (w.buf v).tag with htag | ⟨t, htag⟩
  · rw [syncEnd_no (Or.inl htag)]
    refine h.inner hv _ (mk _ ?_) rfl (Or.inl rfl) (fun e => absurd rfl e) (by rw [hj]; rfl) (Mono.job _ _)
    intro t ht; rw [htag] at ht; cases ht
  · cases d with
    | false =>
      rw [syncEnd_no (Or.inr rfl)]
      refine h.inner hv _ (mk _ ?_) rfl (Or.inl rfl) (fun e => absurd rfl e) (by rw [hj]; rfl) (Mono.job _ _)
      intro t' ht' j hjm hd
      rcases (hb.cval j hjm t' (by rw [ctag j hjm]; exact ht')).2 hd with a | a
      · exact a
      · rw [hj] at a; exact a.elim
    | true =>
      rw [syncEnd_yes htag]
      have hcv : cached (w.buf v) t := Or.inl htag
      refine h.change (v := v) (b' := { w.buf v with job := .free }) hv rfl (fun _ _ => rfl)
        (fun t' hn => fileVal_other (fun e => hn (e ▸ hcv))) (mk _ ?_) (fun t a => Or.inl a) (fun t a na => absurd a na)
        (h.grp.keep (fun t a => a) (by rw [hj]; rfl)) (preKeep h.pre (by rw [hj]; rfl)) (Mono.job _ _) (fun _ => Or.inl rfl) h.leg
      intro t' ht' j hjm hd
      rw [htag] at ht'
      cases ht'
      show fileVal P (set w.file t (some old)) t j = _
      rw [fileVal_some]
      exact (l2 j (by omega) hd).symm

theorem keepAny_false {size : Nat} {old : Nat → Part} : ∀ {k : Nat}, keepAny size old k = false →
    ∀ j, j < k → (old j).locks = 0 ∧ ((old j).st = .notLoaded ∨ ((old j).st = .loaded ∧ size ≤ j)) := by
  intro k
  induction k with
  | zero => intro _ j hj; omega
  | succ k ih =>
    intro h j hj
    simp only [keepAny, Bool.or_eq_false_iff] at h
    by_cases e : j = k
    · subst e
      have := h.2
      unfold keep at this
      cases hs : (old j).st <;> simp [hs] at this ⊢ <;> omega
    · exact ih h.1 j (by omega)

theorem inv_save {P : Par} {s0 : Nat → Nat → Part} {w : World} (h : Inv P s0 w) {v : Nat} (hv : v < P.n)
    {nv old : Nat → Part} {nd d : Bool} {k : Nat} (size : Nat) (hj : (w.buf v).job = .exch nv nd k old d) (hk : ¬ k < P.m) :
    Inv P s0 (save P w v size old d) := by
  have hb := h.bufs v hv
  have hl := hb.loc
  have hpar := hb.par
  rw [hj] at hl hpar
  obtain ⟨l1, l2, l3⟩ := hl
  have hkm : k = P.m := by omega
  subst hkm
  have ctag : ∀ j, j < P.m → ((w.buf v).cell j).tag = (w.buf v).tag := by
    intro j hjm; have := hb.ctag j hjm; rw [hj] at this; simpa [Job.own, hjm] using this
  have mk : ∀ sp fv : Nat → Nat → Part,
      (∀ t, (w.buf v).tag = some t → sp t = after P.fresh s0 w.log t ∧ fv t = fileVal P w.file t) →
      (∀ t, (w.buf v).shadow = some t → ∀ j, j < P.m → fv t j = sp t j) → BInv P.m sp fv { w.buf v with job := .fin } := by
    intro sp fv h1 h2
    refine ⟨hpar, hb.ccnt, ?_, ctag, (fun e => by cases e), hb.diff, h2⟩
    intro j hjm t ht
    obtain ⟨e1, e2⟩ := h1 t (by rw [← ctag j hjm]; exact ht)
    rw [e1, e2]
    refine ⟨(hb.cval j hjm t ht).1, fun hd => Or.inl ?_⟩
    rcases (hb.cval j hjm t ht).2 hd with a | a
    · exact a
    · rw [hj] at a; exact a.elim
  rcases Option.eq_none_or_eq_some (w.buf v).shadow with hsh | ⟨s, hsh⟩
  · rw [save_no (Or.inl hsh)]
    refine h.inner hv _ (mk _ _ (fun _ _ => ⟨rfl, rfl⟩) ?_) rfl (Or.inl rfl) (fun e => absurd rfl e) (by rw [hj]; rfl) (Mono.job _ _)
    intro t ht; rw [hsh] at ht; cases ht
  · have hcv : cached (w.buf v) s := Or.inr hsh
    by_cases hu : ((w.buf v).tag.isNone && !keepAny size old P.m) = true
    · rw [save_unlink hsh hu]
      simp only [Bool.and_eq_true, Bool.not_eq_true'] at hu
      obtain ⟨hu1, hu2⟩ := hu
      have htag : (w.buf v).tag = none := by
        cases hx : (w.buf v).tag
        · rfl
        · rw [hx] at hu1; cases hu1
      have hsp : ∀ t, t ≠ s → after P.fresh s0 (.unlink s size :: w.log) t = after P.fresh s0 w.log t := by
        intro t ne; funext j; simp [after, apply, ne]
      refine h.change (v := v) (b' := { w.buf v with job := .fin }) hv rfl (fun t hn => hsp t (fun e => hn (e ▸ hcv)))
        (fun t hn => fileVal_other (fun e => hn (e ▸ hcv))) (mk _ _ ?_ ?_) (fun t a => Or.inl a) (fun t a na => absurd a na)
        (h.grp.keep (fun t a => a) (by rw [hj]; rfl)) (preKeep h.pre (by rw [hj]; rfl)) (Mono.job _ _) (fun _ => Or.inl rfl) ?_
      · intro t ht; rw [htag] at ht; cases ht
      · intro t ht j hjm
        rw [hsh] at ht
        cases ht
        show fileVal P (set w.file s none) s j = after P.fresh s0 (.unlink s size :: w.log) s j
        rw [fileVal_none]
        simp [after, apply]
      · refine ⟨h.leg, ?_⟩
        intro j hjm
        have := keepAny_false hu2 j hjm
        rw [(l3 s hsh j hjm).1] at this
        exact this
    · have hu' := Bool.eq_false_iff.mpr hu
      cases d with
      | false =>
        rw [save_no (Or.inr ⟨rfl, hu'⟩)]
        refine h.inner hv _ (mk _ _ (fun _ _ => ⟨rfl, rfl⟩) ?_) rfl (Or.inl rfl) (fun e => absurd rfl e) (by rw [hj]; rfl) (Mono.job _ _)
        intro t ht j hjm
        obtain ⟨a, b⟩ := l3 t ht j hjm
        rw [b rfl, a]
      | true =>
        rw [save_write hsh hu']
        refine h.change (v := v) (b' := { w.buf v with job := .fin }) hv rfl (fun _ _ => rfl)
          (fun t' hn => fileVal_other (fun e => hn (e ▸ hcv))) (mk _ _ ?_ ?_) (fun t a => Or.inl a) (fun t a na => absurd a na)
          (h.grp.keep (fun t a => a) (by rw [hj]; rfl)) (preKeep h.pre (by rw [hj]; rfl)) (Mono.job _ _) (fun _ => Or.inl rfl) h.leg
        · intro t ht
          exact ⟨rfl, fileVal_other (fun e => hb.diff s hsh (e ▸ ht))⟩
        · intro t ht j hjm
          rw [hsh] at ht
          cases ht
          show fileVal P (set w.file s (some old)) s j = _
          rw [fileVal_some]
          exact (l3 s hsh j hjm).1

theorem inv_bump {P : Par} {s0 : Nat → Nat → Part} {w : World} (h : Inv P s0 w) {v : Nat} (hv : v < P.n)
    {new : Option Nat} (hj : (w.buf v).job = .bump new) :
    Inv P s0 (w.put v { w.buf v with cnt := (w.buf v).cnt + 1, job := .swap new }) := by
  have hb := h.bufs v hv
  have hpar := hb.par
  rw [hj] at hpar
  refine h.inner hv _ ?_ rfl (Or.inl rfl) (fun e => absurd rfl e) (by rw [hj]; rfl)
    ⟨Nat.le_succ _, fun e => absurd e (by simp only; omega), fun _ _ => Or.inl ⟨rfl, rfl⟩⟩
  refine ⟨?_, ?_, ?_, ?_, ?_, hb.diff, trivial⟩
  · simp only [Job.odd] at hpar ⊢; omega
  · intro j hjm
    obtain ⟨a, b, _⟩ := hb.ccnt j hjm
    refine ⟨a, Nat.le_succ_of_le b, fun e => ?_⟩
    simp only at e
    omega
  · intro j hjm t ht
    refine ⟨(hb.cval j hjm t ht).1, fun hd => Or.inl ?_⟩
    rcases (hb.cval j hjm t ht).2 hd with a | a
    · exact a
    · rw [hj] at a; exact a.elim
  · intro j hjm
    have := hb.ctag j hjm
    rw [hj] at this
    exact this
  · intro _
    exact hb.shad (by rw [hj]; rfl)

theorem inv_go {P : Par} {s0 : Nat → Nat → Part} {w w' : World} (h : Inv P s0 w) {v : Nat} (hv : v < P.n) {size : Nat}
    (hg : go P w v size = some w') : Inv P s0 w' := by
  unfold go at hg
  cases hj : (w.buf v).job with
  | free => simp [hj] at hg
  | bump new => simp only [hj, Option.some.injEq] at hg; subst hg; exact inv_bump h hv hj
  | swap new => simp only [hj, Option.some.injEq] at hg; subst hg; exact inv_swap h hv hj
  | rdf =>
    simp only [hj] at hg
    split at hg
    · rename_i t ht
      simp only [Option.some.injEq] at hg
      subst hg
      refine inv_rdf h hv hj _ _ ?_
      intro t' ht'; rw [ht] at ht'; cases ht'; rfl
    · rename_i ht
      simp only [Option.some.injEq] at hg
      subst hg
      refine inv_rdf h hv hj _ _ ?_
      intro t' ht'; rw [ht] at ht'; cases ht'
  | exch nv nd k old d =>
    simp only [hj] at hg
    split at hg
    · rename_i hk
      simp only [Option.some.injEq] at hg
      subst hg
      exact inv_exch h hv hj hk
    · rename_i hk
      simp only [Option.some.injEq] at hg
      subst hg
      exact inv_save h hv size hj hk
  | fin => simp only [hj, Option.some.injEq] at hg; subst hg; exact inv_fin h hv hj
  | sync k old d =>
    simp only [hj] at hg
    split at hg
    · rename_i hk
      simp only [Option.some.injEq] at hg
      subst hg
      exact inv_syncStep h hv hj hk
    · rename_i hk
      simp only [Option.some.injEq] at hg
      subst hg
      exact inv_syncEnd h hv hj hk

/-- No failure: not `fatal`, not `lose`. -/
def Act.good : Act → Bool
  | .fatal _ => false
  | .lose _ => false
  | _ => true

theorem inv_step {P : Par} {s0 : Nat → Nat → Part} {w w' : World} {a : Act} (h : Inv P s0 w) (ha : a.good = true)
    (hs : step P w a = some w') : Inv P s0 w' := by
  cases a with
  | look p t i op v =>
    simp only [step] at hs
    split at hs
    · split at hs
      · rename_i hvi
        cases hs
        exact h.reader p _ w.log ⟨hvi.1, hvi.2, Nat.le_refl _⟩ rfl h.leg
      · cases hs
    · cases hs
  | tag p torn =>
    simp only [step] at hs
    split at hs
    · rename_i t i op v c hr
      have hR := h.rds p
      rw [hr] at hR
      by_cases hc : (if (w.buf v).cnt % 2 = 1 then torn else decide ((w.buf v).tag = some t)) = true
      · rw [if_pos hc] at hs
        cases hs
        refine h.reader p _ w.log ⟨hR.1, hR.2.1, hR.2.2, ?_⟩ rfl h.leg
        intro e ev
        have : ¬ (w.buf v).cnt % 2 = 1 := by omega
        simp only [this, if_false, decide_eq_true_eq] at hc
        exact hc
      · rw [if_neg hc] at hs
        cases hs
        exact h.reader p _ w.log trivial rfl h.leg
    · cases hs
  | chk p =>
    simp only [step] at hs
    split at hs
    · rename_i t i op v c hr
      have hR := h.rds p
      rw [hr] at hR
      obtain ⟨r1, r2, r3, r4⟩ := hR
      split at hs
      · rename_i hc
        cases hs
        refine h.reader p _ w.log ⟨r1, r2, r3, r4, ?_⟩ rfl h.leg
        intro e
        obtain ⟨a, b, d⟩ := (h.bufs v r1).ccnt i r2
        rw [d (by omega)]
        exact r4 hc.symm (by omega)
      · cases hs
        exact h.reader p _ w.log trivial rfl h.leg
    · cases hs
  | value p =>
    simp only [step] at hs
    split at hs
    · rename_i t i op v c hr
      have hR := h.rds p
      rw [hr] at hR
      obtain ⟨r1, r2, r3, r4, r5⟩ := hR
      split at hs
      · cases hs
        exact h.reader p _ w.log trivial rfl h.leg
      · rename_i hc
        have hc' : ((w.buf v).cell i).cnt = c := Classical.not_not.mp hc
        have hval := ((h.bufs v r1).cval i r2 t (r5 hc')).1
        split at hs
        · cases hs
          exact h.reader p _ (.read t i _ :: w.log) trivial rfl ⟨h.leg, hval⟩
        · rename_i old new
          split at hs
          · cases hs
            exact h.reader p _ (.no t i _ :: w.log) trivial rfl ⟨h.leg, hval⟩
          · cases hs
            exact h.reader p _ w.log ⟨r1, r2, r3, r4, r5⟩ rfl h.leg
    · cases hs
  | xchg p =>
    simp only [step] at hs
    split at hs
    · rename_i t i old new v c d hr
      split at hs
      · rename_i hc
        cases hs
        exact inv_done h hr hc.1 hc.2.1
      · cases hs
        exact h.reader p _ (.lost t i _ :: w.log) trivial rfl ⟨h.leg, trivial⟩
    · cases hs
  | load t =>
    simp only [step] at hs
    split at hs
    · rename_i hg
      cases hs
      refine h.group _ ⟨Nat.zero_le _, fun x hx => by omega⟩ ?_
      intro v hv hp
      exact (noPre h (fun v => by rw [hg]; intro e; cases e) v hv hp).elim
    · cases hs
  | seek =>
    simp only [step] at hs
    split at hs
    · rename_i t u hg
      have hn := noPre h (fun v => by rw [hg]; intro e; cases e)
      have hG := h.grp
      rw [hg] at hG
      split at hs
      · rename_i hu
        have next : (w.buf u).tag ≠ some t → (w.buf u).shadow ≠ some t → Inv P s0 { w with grp := .scan t (u + 1) } := by
          intro h1 h2
          refine h.group _ ⟨hu, ?_⟩ (fun v hv hp => (hn v hv hp).elim)
          intro x hx hc
          by_cases e : x = u
          · subst e; rcases hc with a | a
            · exact h1 a
            · exact h2 a
          · exact hG.2 x (by omega) hc
        split at hs
        · cases hs
          exact h.group _ trivial (fun v hv hp => (hn v hv hp).elim)
        · rename_i ht
          split at hs
          · rename_i hsh
            split at hs
            · rename_i hj
              have := (h.bufs u hu).shad (by rw [hj]; rfl)
              rw [this] at hsh
              cases hsh
            · cases hs
          · rename_i hsh
            cases hs
            exact next ht hsh
      · cases hs
    · cases hs
  | pick v =>
    simp only [step] at hs
    split at hs
    · rename_i t u hg
      have hG := h.grp
      rw [hg] at hG
      split at hs
      · rename_i hu
        split at hs
        · rename_i hj
          cases hs
          refine h.begin hu.2 hj (fun v => by rw [hg]; intro e; cases e) (some t) ?_
          intro t' e x hx
          cases e
          exact hG.2 x (by omega)
        · cases hs
      · cases hs
    · cases hs
  | unl t v =>
    simp only [step] at hs
    split at hs
    · rename_i hg
      split at hs
      · rename_i hv
        cases hs
        exact h.group _ hv.1 (fun u hu hp => (noPre h (fun v => by rw [hg]; intro e; cases e) u hu hp).elim)
      · cases hs
    · cases hs
  | lock =>
    simp only [step] at hs
    split at hs
    · rename_i v hg
      have hG := h.grp
      rw [hg] at hG
      split at hs
      · rename_i hj
        cases hs
        refine h.begin hG hj (fun v => by rw [hg]; intro e; cases e) none ?_
        intro t' e
        cases e
      · cases hs
    · cases hs
  | sync v =>
    simp only [step] at hs
    split at hs
    · rename_i hv
      split at hs
      · rename_i hj
        cases hs
        refine h.inner hv _ ((h.bufs v hv).start hj _ rfl (fun _ => rfl) ?_) rfl (Or.inl rfl) (fun e => absurd rfl e) (by rw [hj]; rfl) (Mono.job _ _)
        exact ⟨Nat.zero_le _, fun j hj => by omega⟩
      · cases hs
    · cases hs
  | go v size =>
    simp only [step] at hs
    split at hs
    · rename_i hv
      exact inv_go h hv hs
    · cases hs
  | fatal v => cases ha
  | lose v => cases ha

theorem inv_run {P : Par} {s0 : Nat → Nat → Part} : ∀ {as : List Act} {w w' : World}, Inv P s0 w →
    (∀ a ∈ as, a.good = true) → run P w as = some w' → Inv P s0 w' := by
  intro as
  induction as with
  | nil => intro w w' h _ hr; cases hr; exact h
  | cons a as ih =>
    intro w w' h hg hr
    simp only [run] at hr
    split at hr
    · cases hr
    · rename_i w1 hs
      exact ih (inv_step h (hg a (List.mem_cons_self ..)) hs) (fun b hb => hg b (List.mem_cons_of_mem _ hb)) hr

end Verif.S3Headers
