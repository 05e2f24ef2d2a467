import Verif.PageState.Queue

/-!
# Preservation of the wait lists by the steps that touch them
-/

namespace Verif.PageState

section
variable {s t : St} {g g' : Ghost}

theorem QInv.not_page_wake (h : QInv s g) {b u x : Nat} (h1 : x ∈ g.list b) (h2 : x ∈ g.w u) :
    False := by
  have a := (h.page_mem b x).1 h1
  have b := (h.wake_mem u x).1 h2
  rw [a] at b; cases b

theorem QInv.page_uniq (h : QInv s g) {b c x : Nat} (h1 : x ∈ g.list b) (h2 : x ∈ g.list c) :
    b = c := by
  have a := (h.page_mem b x).1 h1
  have b := (h.page_mem c x).1 h2
  rw [a] at b; cases b; rfl

theorem QInv.wake_uniq (h : QInv s g) {u v x : Nat} (h1 : x ∈ g.w u) (h2 : x ∈ g.w v) :
    u = v := by
  have a := (h.wake_mem u x).1 h1
  have b := (h.wake_mem v x).1 h2
  rw [a] at b; cases b; rfl

/-- A backend queues itself: the successful compare-and-exchange. -/
theorem qInv_push (h : QInv s g) (p b ch : Nat) (k : Kind)
    (hpc : s.pc p = .casQueue b k (s.word b)) :
    QInv { s with
      word := upd s.word b { s.word b with tail := some p, usage := ch },
      pc := upd s.pc p (.sleep b k) }
      { g with n := upd g.n b (p :: g.n b), loc := upd g.loc p (.page b) } := by
  obtain ⟨hnx, hst⟩ := h.casq p b k _ hpc
  have hloc : g.loc p = .none := h.loc_none (by intro b k; rw [hpc]; simp)
  have hpw : g.w p = [] := (h.w_nil (.inl (by rw [hpc]; trivial))).1
  have hlist : ∀ c, Ghost.list { g with n := upd g.n b (p :: g.n b), loc := upd g.loc p (.page b) } c
      = if c = b then p :: g.list b else g.list c := by
    intro c
    by_cases hc : c = b
    · subst hc; simp [Ghost.list, upd_same]
    · simp [Ghost.list, upd_ne _ _ hc, hc]
  have hpl : ∀ c, p ∉ g.list c := by
    intro c hc
    rw [h.page_mem, hloc] at hc; cases hc
  have hpw' : ∀ u, p ∉ g.w u := by
    intro u hu
    rw [h.wake_mem, hloc] at hu; cases hu
  have hupc : ∀ u, (upd s.pc p (Pc.sleep b k) u).unlPage = (s.pc u).unlPage := by
    intro u
    by_cases hu : u = p
    · subst hu; rw [upd_same, hpc]; rfl
    · rw [upd_ne _ _ hu]
  constructor
  · intro c q
    rw [hlist]
    dsimp only
    by_cases hc : c = b
    · subst hc
      rw [if_pos rfl, List.mem_cons, h.page_mem]
      by_cases hq : q = p
      · subst hq; simp [upd_same]
      · simp [upd_ne _ _ hq, hq]
    · rw [if_neg hc, h.page_mem]
      by_cases hq : q = p
      · subst hq; rw [upd_same, hloc]; simp [Ne.symm hc]
      · rw [upd_ne _ _ hq]
  · intro c
    rw [hlist]
    by_cases hc : c = b
    · subst hc; rw [if_pos rfl]; exact List.nodup_cons.2 ⟨hpl c, h.page_nodup c⟩
    · rw [if_neg hc]; exact h.page_nodup c
  · intro u q
    dsimp only
    rw [h.wake_mem]
    by_cases hq : q = p
    · subst hq; rw [upd_same, hloc]; simp
    · rw [upd_ne _ _ hq]
  · exact h.wake_nodup
  · intro q hq
    dsimp only at hq ⊢
    by_cases hqp : q = p
    · subst hqp
      refine ⟨b, k, upd_same _ _ _, hst, ?_, ?_⟩
      · intro b' hb'; rw [upd_same] at hb'; cases hb'; rfl
      · intro u hu; rw [upd_same] at hu; cases hu
    · simp only [upd_ne _ _ hqp] at hq ⊢
      obtain ⟨b', k', h1, h2, h3, h4⟩ := h.sleeper q hq
      refine ⟨b', k', h1, h2, h3, ?_⟩
      intro u hu
      have hup : u ≠ p := by
        intro hup
        have := (h.wake_mem u q).2 hu
        rw [hup, hpw] at this; cases this
      rw [upd_ne _ _ hup]; exact h4 u hu
  · intro q b' k' hq hl
    dsimp only at hq hl ⊢
    by_cases hqp : q = p
    · subst hqp; rw [upd_same] at hl; cases hl
    · rw [upd_ne _ _ hqp] at hq hl; exact h.woken q b' k' hq hl
  · intro q hq
    dsimp only at hq ⊢
    by_cases hqp : q = p
    · subst hqp
      obtain ⟨b', hb'⟩ := h.ins q hq
      rw [hpc] at hb'; cases hb'
    · rw [upd_ne _ _ hqp]; exact h.ins q hq
  · intro q b' k' w hq
    dsimp only at hq ⊢
    by_cases hqp : q = p
    · subst hqp; rw [upd_same] at hq; cases hq
    · rw [upd_ne _ _ hqp] at hq; exact h.casq q b' k' w hq
  · intro c hc
    dsimp only at hc ⊢
    have := h.free c (fun u => by rw [← hupc u]; exact hc u)
    by_cases hcb : c = b
    · subst hcb
      rw [upd_same, upd_same]
      exact ⟨⟨rfl, by rw [hnx]; exact this.1⟩, this.2⟩
    · rw [upd_ne _ _ hcb, upd_ne _ _ hcb]; exact this
  · intro u
    dsimp only
    by_cases hu : u = p
    · subst hu; rw [upd_same]; exact hpw
    · rw [upd_ne _ _ hu]
      have hui := h.unl u
      by_cases hub : (s.pc u).unlPage = some b
      · cases hc : s.pc u with
        | walk U =>
          rw [hc] at hui hub
          have hb : U.b = b := by simpa [Pc.unlPage] using hub
          have hui : Walk s g u U := hui
          show Walk _ _ u U
          subst hb
          constructor <;> (try dsimp only)
          · rw [upd_same, upd_same]; exact ⟨rfl, by rw [hnx]; exact hui.new⟩
          · exact hui.kept
          · exact hui.prev
          · exact hui.rest
          · exact hui.old
          · exact hui.wake
          · exact hui.exclPrev
          · exact hui.excl
          · exact hui.woken
          · exact hui.oldWoken
          · exact hui.stay
          · exact hui.prevTail
          · exact hui.tail
        | ucas U =>
          rw [hc] at hui hub
          have hb : U.b = b := by simpa [Pc.unlPage] using hub
          have hui : Ucas s g u U := hui
          show Ucas _ _ u U
          subst hb
          constructor <;> (try dsimp only)
          · rw [upd_same, upd_same]; exact ⟨rfl, by rw [hnx]; exact hui.new⟩
          · exact hui.k_nil
          · exact hui.r_nil
          · exact hui.old
          · exact hui.wake
          · exact hui.woken
          · exact hui.oldWoken
          · exact hui.stay
          · exact hui.tail
        | _ => rw [hc] at hub; cases hub
      · refine uInv_frame hui rfl (fun x _ => ⟨rfl, rfl, rfl⟩) ?_
        intro c hc
        have hcb : c ≠ b := by
          intro hcb; subst hcb; exact hub hc
        dsimp only
        rw [upd_ne _ _ hcb, upd_ne _ _ hcb]
        exact ⟨rfl, rfl, rfl, rfl, rfl, fun x _ => ⟨rfl, rfl, rfl⟩⟩
  · intro q
    dsimp only
    by_cases hqp : q = p
    · subst hqp; rw [upd_same]; simp
    · rw [upd_ne _ _ hqp]; exact h.nocrash q

/-- Changes made by the backend `p` that unlocks page `b`: the lists of this page
and of its wakers may change in any way that keeps the invariant for them. -/
theorem QInv.unlStep (h : QInv s g) (p b : Nat)
    (huniq : ∀ u, u ≠ p → (s.pc u).unlPage ≠ some b)
    (hns : ∀ b k, s.pc p ≠ .sleep b k) (hns' : ∀ b k, t.pc p ≠ .sleep b k)
    (hncq : ∀ b k w, t.pc p ≠ .casQueue b k w)
    (hcr : t.pc p ≠ .crash)
    (hact : g.w p = [] ∨ (s.pc p).actPage = some b) (hact' : (t.pc p).actPage = some b)
    (hpc : ∀ q, q ≠ p → t.pc q = s.pc q)
    (hst : t.status = s.status) (hin : t.inserted = s.inserted)
    (hnx : ∀ x, x ∉ g.list b → x ∉ g.w p → t.next x = s.next x)
    (hwt : ∀ c, c ≠ b → (t.word c).tail = (s.word c).tail)
    (hgn : ∀ c, c ≠ b → g'.n c = g.n c ∧ g'.k c = g.k c ∧ g'.r c = g.r c ∧ g'.o c = g.o c)
    (hgw : ∀ u, u ≠ p → g'.w u = g.w u)
    (hnd : (g'.list b ++ g'.w p).Nodup)
    (hmem : ∀ x, x ∈ g'.list b ++ g'.w p ↔ x ∈ g.list b ++ g.w p)
    (hloc : ∀ x, g'.loc x = if x ∈ g'.list b then .page b else if x ∈ g'.w p then .wake p
      else g.loc x)
    (hfree : (t.pc p).unlPage ≠ some b →
      Chain t.next (t.word b).tail (g'.n b) none ∧ g'.k b = [] ∧ g'.r b = [] ∧ g'.o b = [])
    (hun : (t.pc p).unlPage = none ∨ (t.pc p).unlPage = some b)
    (hup : (s.pc p).unlPage = none ∨ (s.pc p).unlPage = some b)
    (hunl : uInv t g' p (t.pc p)) : QInv t g' := by
  have hin_iff : ∀ x, (g.loc x = .page b ∨ g.loc x = .wake p) ↔
      (x ∈ g'.list b ∨ x ∈ g'.w p) := by
    intro x
    have := hmem x
    rw [List.mem_append, List.mem_append, h.page_mem, h.wake_mem] at this
    exact this.symm
  have hdisj : ∀ x, x ∈ g'.list b → x ∉ g'.w p := by
    intro x h1 h2
    exact (List.nodup_append.1 hnd).2.2 x h1 x h2 rfl
  have hlp : g.loc p = .none := h.loc_none hns
  have hlist : ∀ c, c ≠ b → g'.list c = g.list c := by
    intro c hc
    obtain ⟨h1, h2, h3, h4⟩ := hgn c hc
    simp [Ghost.list, h1, h2, h3, h4]
  have hpl : ∀ x, x ∈ g'.list b → g.loc x = .page b ∨ g.loc x = .wake p :=
    fun x hx => (hin_iff x).2 (.inl hx)
  have hpw : ∀ x, x ∈ g'.w p → g.loc x = .page b ∨ g.loc x = .wake p :=
    fun x hx => (hin_iff x).2 (.inr hx)
  have hactb : ∀ x, g.loc x = .wake p → (s.pc p).actPage = some b := by
    intro x hx
    rcases hact with h1 | h1
    · have := (h.wake_mem p x).2 hx
      rw [h1] at this; cases this
    · exact h1
  have hslp : ∀ q, g.loc q ≠ .none → q ≠ p := fun q hq hqp => hq (hqp ▸ hlp)
  have hsameN : ∀ x, g.loc x ≠ .page b → g.loc x ≠ .wake p → Same s t x := by
    intro x h1 h2
    refine ⟨hnx x ?_ ?_, by rw [hst], by rw [hin]⟩
    · rw [h.page_mem]; exact h1
    · rw [h.wake_mem]; exact h2
  constructor
  · intro c q
    rw [hloc]
    by_cases hc : c = b
    · subst hc
      by_cases h1 : q ∈ g'.list c
      · simp [h1]
      · simp only [h1, if_false]
        by_cases h2 : q ∈ g'.w p
        · simp [h2]
        · simp only [h2, if_false]
          constructor
          · intro hf; cases hf
          · intro hq
            rcases (hin_iff q).1 (.inl hq) with h3 | h3
            · exact absurd h3 h1
            · exact absurd h3 h2
    · rw [hlist c hc, h.page_mem]
      by_cases h1 : q ∈ g'.list b
      · simp only [h1, if_true]
        rcases hpl q h1 with h2 | h2 <;> simp [h2, Ne.symm hc]
      · simp only [h1, if_false]
        by_cases h2 : q ∈ g'.w p
        · simp only [h2, if_true]
          rcases hpw q h2 with h3 | h3 <;> simp [h3, Ne.symm hc]
        · simp only [h2, if_false]
  · intro c
    by_cases hc : c = b
    · subst hc; exact (List.nodup_append.1 hnd).1
    · rw [hlist c hc]; exact h.page_nodup c
  · intro u q
    rw [hloc]
    by_cases hu : u = p
    · subst hu
      by_cases h1 : q ∈ g'.list b
      · simp [h1, hdisj q h1]
      · simp only [h1, if_false]
        by_cases h2 : q ∈ g'.w u
        · simp [h2]
        · simp only [h2, if_false]
          constructor
          · intro hf; cases hf
          · intro hq
            rcases (hin_iff q).1 (.inr hq) with h3 | h3
            · exact absurd h3 h1
            · exact absurd h3 h2
    · rw [hgw u hu, h.wake_mem]
      by_cases h1 : q ∈ g'.list b
      · simp only [h1, if_true]
        rcases hpl q h1 with h2 | h2 <;> simp [h2, Ne.symm hu]
      · simp only [h1, if_false]
        by_cases h2 : q ∈ g'.w p
        · simp only [h2, if_true]
          rcases hpw q h2 with h3 | h3 <;> simp [h3, Ne.symm hu]
        · simp only [h2, if_false]
  · intro u
    by_cases hu : u = p
    · subst hu; exact (List.nodup_append.1 hnd).2.1
    · rw [hgw u hu]; exact h.wake_nodup u
  · intro q hq
    have hq0 : g.loc q ≠ .none := by
      rw [hloc] at hq
      by_cases h1 : q ∈ g'.list b
      · rcases hpl q h1 with h2 | h2 <;> simp [h2]
      · by_cases h2 : q ∈ g'.w p
        · rcases hpw q h2 with h3 | h3 <;> simp [h3]
        · simpa [h1, h2] using hq
    have hqp := hslp q hq0
    obtain ⟨b', k', h1, h2, h3, h4⟩ := h.sleeper q hq0
    have hb' : (q ∈ g'.list b ∨ q ∈ g'.w p) → b = b' := by
      intro hh
      rcases (hin_iff q).2 hh with h5 | h5
      · exact h3 b h5
      · have := h4 p h5
        rw [hactb q h5] at this
        cases this; rfl
    refine ⟨b', k', by rw [hpc q hqp]; exact h1, by rw [hst]; exact h2, ?_, ?_⟩
    · intro c hc
      rw [hloc] at hc
      by_cases h5 : q ∈ g'.list b
      · simp only [h5, if_true] at hc
        cases hc; exact hb' (.inl h5)
      · simp only [h5, if_false] at hc
        by_cases h6 : q ∈ g'.w p
        · simp [h6] at hc
        · simp only [h6, if_false] at hc; exact h3 c hc
    · intro u hu
      rw [hloc] at hu
      by_cases h5 : q ∈ g'.list b
      · simp [h5] at hu
      · simp only [h5, if_false] at hu
        by_cases h6 : q ∈ g'.w p
        · simp only [h6, if_true] at hu
          cases hu
          rw [hact', hb' (.inr h6)]
        · simp only [h6, if_false] at hu
          have hup' : u ≠ p := by
            intro hup'; subst hup'
            rcases (hin_iff q).1 (.inr hu) with h7 | h7
            · exact h5 h7
            · exact h6 h7
          rw [hpc u hup']; exact h4 u hu
  · intro q b' k' hq hl
    have hqp : q ≠ p := by
      intro hqp; subst hqp; exact hns' b' k' hq
    rw [hst]
    refine h.woken q b' k' (by rw [← hpc q hqp]; exact hq) ?_
    rw [hloc] at hl
    by_cases h1 : q ∈ g'.list b
    · simp [h1] at hl
    · by_cases h2 : q ∈ g'.w p
      · simp [h1, h2] at hl
      · simpa [h1, h2] using hl
  · intro q hq
    rw [hin] at hq
    obtain ⟨b', hb'⟩ := h.ins q hq
    have hqp : q ≠ p := by
      intro hqp; subst hqp; exact hns _ _ hb'
    exact ⟨b', by rw [hpc q hqp]; exact hb'⟩
  · intro q b' k' w hq
    have hqp : q ≠ p := by
      intro hqp; subst hqp; exact hncq _ _ _ hq
    have hq' : s.pc q = .casQueue b' k' w := by rw [← hpc q hqp]; exact hq
    have hl : g.loc q = .none := h.loc_none (by intro b k; rw [hq']; simp)
    rw [(hsameN q (by simp [hl]) (by simp [hl])).1, hst]
    exact h.casq q b' k' w hq'
  · intro c hc
    by_cases hcb : c = b
    · subst hcb; exact hfree (hc p)
    · obtain ⟨h1, h2, h3, h4⟩ := hgn c hcb
      rw [h1, h2, h3, h4, hwt c hcb]
      have := h.free c ?_
      · refine ⟨this.1.congr ?_, this.2⟩
        intro x hx
        have hx' := (h.page_mem c x).1 (mem_list_iff.2 (.inl hx))
        exact (hsameN x (by rw [hx']; simp [hcb]) (by rw [hx']; simp)).1
      · intro u
        by_cases hu : u = p
        · subst hu
          rcases hup with h5 | h5 <;> rw [h5]
          · simp
          · simp [Ne.symm hcb]
        · rw [← hpc u hu]; exact hc u
  · intro u
    by_cases hu : u = p
    · subst hu; exact hunl
    · rw [hpc u hu]
      refine uInv_frame (h.unl u) (hgw u hu) ?_ ?_
      · intro x hx
        have hx' := (h.wake_mem u x).1 hx
        exact hsameN x (by rw [hx']; simp) (by rw [hx']; simp [hu])
      · intro c hc
        have hcb : c ≠ b := by
          intro hcb; subst hcb; exact huniq u hu hc
        obtain ⟨h1, h2, h3, h4⟩ := hgn c hcb
        refine ⟨hwt c hcb, h1, h2, h3, h4, ?_⟩
        intro x hx
        have hx' := (h.page_mem c x).1 hx
        exact hsameN x (by rw [hx']; simp [hcb]) (by rw [hx']; simp)
  · intro q
    by_cases hqp : q = p
    · subst hqp; exact hcr
    · rw [hpc q hqp]; exact h.nocrash q

/-- The first read of the state word by the unlock. -/
theorem qInv_uread (h : QInv s g) (hl : LockInv s) (p b : Nat) (sp : Bool)
    (hpc : s.pc p = .uread b sp) :
    QInv (s.goto p (.walk (unlStart b sp (s.word b) none none none false)))
      { g with r := upd g.r b (g.n b), n := upd g.n b [] } := by
  have hun : (s.pc p).unlocking = some (b, none) := by rw [hpc]; rfl
  have huniq : ∀ u, u ≠ p → (s.pc u).unlPage ≠ some b :=
    fun u hu hc => hu (hl.unl_unique hun hc).symm
  have hfree := h.free b (by
    intro u
    by_cases hu : u = p
    · subst hu; rw [hpc]; simp [Pc.unlPage]
    · exact huniq u hu)
  obtain ⟨f1, f2, f3, f4⟩ := hfree
  have hwp := (h.w_nil (p := p) (.inl (by rw [hpc]; trivial))).1
  have hlist : Ghost.list { g with r := upd g.r b (g.n b), n := upd g.n b [] } b = g.list b := by
    simp [Ghost.list, upd_same, f2, f3, f4]
  have hpc' : (s.goto p (.walk (unlStart b sp (s.word b) none none none false))).pc p
      = .walk (unlStart b sp (s.word b) none none none false) := upd_same _ _ _
  have hndl := h.page_nodup b
  refine h.unlStep p b huniq ?_ ?_ ?_ ?_ (.inl hwp) ?_ ?_ rfl rfl (fun _ _ _ => rfl)
    (fun _ _ => rfl) ?_ (fun _ _ => rfl) ?_ ?_ ?_ ?_ ?_ ?_ ?_
  · intro b k; rw [hpc]; simp
  · intro b k; rw [hpc']; simp
  · intro b k w; rw [hpc']; simp
  · rw [hpc']; simp
  · rw [hpc']; rfl
  · intro q hq; exact upd_ne _ _ hq
  · intro c hc; simp [upd_ne _ _ hc]
  · rw [hlist]; dsimp only; rw [hwp]; simpa using hndl
  · intro x; rw [hlist]
  · intro x
    rw [hlist]; dsimp only; rw [hwp]
    by_cases hx : x ∈ g.list b
    · simp [hx, (h.page_mem b x).1 hx]
    · simp [hx]
  · rw [hpc']; intro hc; exact absurd rfl hc
  · rw [hpc']; exact .inr rfl
  · rw [hpc]; exact .inl rfl
  · rw [hpc']
    show Walk _ _ p _
    constructor <;> (try simp only [unlStart, St.goto, upd_same, f2, f4, hwp])
    · rfl
    · rfl
    · rfl
    · exact f1
    · rfl
    · rfl
    · intro _; rfl
    · intro hc; cases hc
    · intro hc; exact absurd rfl hc
    · intro x hx; rcases hx with hx | hx <;> cases hx
    · intro x hx; cases hx
    · intro x hx
      rw [hx] at f1
      cases hn : g.n b with
      | nil => rw [hn] at f1; cases f1
      | cons y l =>
        rw [hn] at f1
        have : x = y := by have := f1.1; simpa using this
        subst this
        simp

theorem nodup_disj {l m : List Nat} (h : (l ++ m).Nodup) {x : Nat} (h1 : x ∈ l) : x ∉ m :=
  fun h2 => (List.nodup_append.1 h).2.2 x h1 x h2 rfl

/-- The nodes of the four segments of a page and of the wake list are distinct. -/
theorem QInv.nodup_all (h : QInv s g) (b u : Nat) : (g.list b ++ g.w u).Nodup :=
  List.nodup_append.2 ⟨h.page_nodup b, h.wake_nodup u,
    fun x hx y hy hxy => h.not_page_wake hx (hxy ▸ hy)⟩

/-- The list ends where the walk must stop, and not before. -/
theorem Walk.cur_eq (h : QInv s g) {p : Nat} {u : Unl} (hw : Walk s g p u)
    (hc : u.cur = u.prevTail) : g.r u.b = [] := by
  refine Chain.self_nil (n := s.next) (h := u.cur) ?_ (by have := hw.rest; rw [← hc] at this; exact this)
  intro x hx hxr
  rw [hc] at hx
  rcases hw.prevTail x hx with h1 | h1
  · have := h.page_nodup u.b
    simp only [Ghost.list] at this
    exact nodup_disj (List.nodup_append.1 (List.nodup_append.1 this).2.1).2.1 hxr h1
  · exact h.not_page_wake (b := u.b) (mem_list_iff.2 (.inr (.inr (.inl hxr)))) h1

theorem Walk.cur_ne {p : Nat} {u : Unl} (hw : Walk s g p u) (hc : u.cur ≠ u.prevTail) :
    ∃ c l, u.cur = some c ∧ g.r u.b = c :: l ∧ Chain s.next (s.next c) l u.prevTail := by
  have := hw.rest
  cases hr : g.r u.b with
  | nil => rw [hr] at this; exact absurd this hc
  | cons c l => rw [hr] at this; exact ⟨c, l, this.1, rfl, this.2⟩

/-- The data common to the steps of a walking unlock. -/
theorem walk_uniq (hl : LockInv s) {p : Nat} {u : Unl} (hpc : s.pc p = .walk u) :
    ∀ v, v ≠ p → (s.pc v).unlPage ≠ some u.b :=
  fun v hv hc => hv (hl.unl_unique (p := p) (w := some u.s) (by rw [hpc]; rfl) hc).symm

/-- A waiter is kept. -/
theorem qInv_keep (h : QInv s g) (hl : LockInv s) (p : Nat) (u u' : Unl) (c : Nat)
    (l : List Nat) (hpc : s.pc p = .walk u) (hcur : u.cur = some c) (hr : g.r u.b = c :: l)
    (hstay : shouldWake s u.split c = false)
    (hu' : u' = { u with
      excl := if u.exclWoken = false ∧ u.excl = none then some c else u.excl,
      exclPrev := if u.exclWoken = false ∧ u.excl = none then u.prev else u.exclPrev,
      prev := some c, cur := s.next c }) :
    QInv (s.goto p (.walk u'))
      { g with k := upd g.k u.b (g.k u.b ++ [c]), r := upd g.r u.b l } := by
  have hw : Walk s g p u := by have := h.unl p; rw [hpc] at this; exact this
  have hb' : u'.b = u.b := by rw [hu']
  have hlist : Ghost.list { g with k := upd g.k u.b (g.k u.b ++ [c]), r := upd g.r u.b l } u.b
      = g.list u.b := by
    simp [Ghost.list, upd_same, hr]
  have hpc' : (s.goto p (.walk u')).pc p = .walk u' := upd_same _ _ _
  have hnd := h.nodup_all u.b p
  refine h.unlStep p u.b (walk_uniq hl hpc) ?_ ?_ ?_ ?_ (.inr (by rw [hpc]; rfl)) ?_ ?_ rfl rfl
    (fun _ _ _ => rfl) (fun _ _ => rfl) ?_ (fun _ _ => rfl) ?_ ?_ ?_ ?_ ?_ ?_ ?_
  · intro b k; rw [hpc]; simp
  · intro b k; rw [hpc']; simp
  · intro b k w; rw [hpc']; simp
  · rw [hpc']; simp
  · rw [hpc']; simp [Pc.actPage, hb']
  · intro q hq; exact upd_ne _ _ hq
  · intro d hd; simp [upd_ne _ _ hd]
  · rw [hlist]; exact hnd
  · intro x; rw [hlist]
  · intro x
    rw [hlist]
    by_cases hx : x ∈ g.list u.b
    · simp [hx, (h.page_mem u.b x).1 hx]
    · by_cases hx2 : x ∈ g.w p
      · simp [hx, hx2, (h.wake_mem p x).1 hx2]
      · simp [hx, hx2]
  · rw [hpc']; intro hc; simp [Pc.unlPage, hb'] at hc
  · rw [hpc']; right; simp [Pc.unlPage, hb']
  · rw [hpc]; exact .inr rfl
  · rw [hpc']
    show Walk _ _ p _
    have hrest := hw.rest
    rw [hr] at hrest
    constructor <;> (try rw [hb']) <;> (try simp only [St.goto, upd_same])
    · rw [hu']; exact hw.new
    · rw [hu']
      refine Chain.append.2 ⟨_, hw.kept, ?_⟩
      exact ⟨hcur, rfl⟩
    · rw [hu']; simp
    · rw [hu']; exact hrest.2
    · rw [hu']; exact hw.old
    · rw [hu']; exact hw.wake
    · rw [hu']
      dsimp only
      split
      · rename_i hf
        rw [hw.prev]
        have he := hw.excl hf.1
        rw [hf.2] at he
        have : g.k u.b = [] := by
          cases hk : g.k u.b with
          | nil => rfl
          | cons a as => rw [hk] at he; cases he
        rw [this]; rfl
      · exact hw.exclPrev
    · rw [hu']
      dsimp only
      intro hwk
      have he := hw.excl hwk
      · rw [hwk]
        cases hk : g.k u.b with
        | nil => rw [hk] at he; simp [he]
        | cons a as => rw [hk] at he; simp [he]
    · rw [hu']; exact hw.woken
    · rw [hu']; exact hw.oldWoken
    · rw [hu']
      intro x hx
      rcases hx with hx | hx
      · rcases List.mem_append.1 hx with hx | hx
        · exact hw.stay x (.inl hx)
        · have : x = c := by simpa using hx
          subst this; exact hstay
      · exact hw.stay x (.inr hx)
    · rw [hu']; exact hw.prevTail
    · rw [hu']
      intro x hx
      rcases hw.tail x hx with h1 | h1 | h1 | h1
      · exact .inl (List.mem_append_left _ h1)
      · rw [hr] at h1
        rcases List.mem_cons.1 h1 with h2 | h2
        · subst h2; exact .inl (List.mem_append_right _ (List.mem_singleton.2 rfl))
        · exact .inr (.inl h2)
      · exact .inr (.inr (.inl h1))
      · exact .inr (.inr (.inr h1))

end

end Verif.PageState
