/-
The chain of headers as a list, and what the basic writes do to it.
-/
import Verif.RowLocks.Model

namespace Verif.RowLocks

/-- The undo records hold the chain `L`: each header points to a record with the
next header, locations decrease, and the last header points nowhere. -/
def Stored (r : Recs) : List Hdr → Prop
  | [] => True
  | [h] => h.loc = 0
  | h :: g :: t => h.loc ≠ 0 ∧ (r h.loc).hdr = g ∧ g.loc < h.loc ∧ Stored r (g :: t)

theorem Stored.tail {r : Recs} {h : Hdr} {t : List Hdr} (H : Stored r (h :: t)) :
    Stored r t := by
  cases t with
  | nil => trivial
  | cons g t => exact H.2.2.2

theorem Stored.drop {r : Recs} : ∀ {P Q : List Hdr}, Stored r (P ++ Q) → Stored r Q
  | [], _, H => H
  | _ :: P, Q, H => Stored.drop (P := P) (Q := Q) (Stored.tail H)

theorem Stored.below {r : Recs} : ∀ {t : List Hdr} {h : Hdr}, Stored r (h :: t) →
    ∀ g ∈ t, g.loc < h.loc
  | [], _, _, _, hg => by simp at hg
  | k :: t, h, H, g, hg => by
    rcases List.mem_cons.1 hg with e | hg'
    · subst e; exact H.2.2.1
    · have := Stored.below H.2.2.2 g hg'
      have := H.2.2.1
      omega

theorem Stored.desc {r : Recs} : ∀ {L : List Hdr}, Stored r L →
    L.Pairwise (fun g h => h.loc < g.loc)
  | [], _ => List.Pairwise.nil
  | _ :: _, H => List.Pairwise.cons (Stored.below H) (Stored.desc (Stored.tail H))

/-- Only the headers at the locations of the chain matter. -/
theorem Stored.frame {r r' : Recs} : ∀ {L : List Hdr}, Stored r L →
    (∀ h ∈ L, (r' h.loc).hdr = (r h.loc).hdr) → Stored r' L
  | [], _, _ => trivial
  | [_], H, _ => H
  | h :: g :: t, H, F => by
    refine ⟨H.1, ?_, H.2.2.1, Stored.frame H.2.2.2 (fun k hk => F k (List.mem_cons_of_mem _ hk))⟩
    rw [F h List.mem_cons_self]; exact H.2.1

/-- The first header matters only through its location. -/
theorem Stored.head {r : Recs} {g g' : Hdr} {t : List Hdr} (H : Stored r (g :: t))
    (e : g'.loc = g.loc) : Stored r (g' :: t) := by
  cases t with
  | nil => simpa [Stored, e] using H
  | cons k t => simpa [Stored, e] using H

/-- Replaces the chain below a header. -/
theorem Stored.graft {r r' : Recs} : ∀ {P : List Hdr} {k c : Hdr} {Q : List Hdr},
    Stored r (P ++ k :: c :: Q) → ∀ {c' : Hdr} {Q' : List Hdr}, Stored r' (c' :: Q') →
    c'.loc < k.loc → (r' k.loc).hdr = c' →
    (∀ l, k.loc < l → (r' l).hdr = (r l).hdr) → Stored r' (P ++ k :: c' :: Q')
  | [], k, _, _, H, c', Q', S, lt, e, _ => ⟨H.1, e, lt, S⟩
  | [p], k, c, Q, H, c', Q', S, lt, e, F => by
    have H' : Stored r (p :: k :: c :: Q) := H
    refine ⟨H'.1, ?_, H'.2.2.1, H'.2.2.2.1, e, lt, S⟩
    rw [F _ H'.2.2.1]; exact H'.2.1
  | p :: q :: P, k, c, Q, H, c', Q', S, lt, e, F => by
    have H' : Stored r (p :: q :: (P ++ k :: c :: Q)) := H
    have hk : k.loc < p.loc := Stored.below H' k (by simp)
    refine ⟨H'.1, ?_, H'.2.2.1, Stored.graft (P := q :: P) H'.2.2.2 S lt e F⟩
    rw [F _ hk]; exact H'.2.1

/-- Clears `chainHasLocks`. -/
def unchl (h : Hdr) : Hdr := { h with chl := false }

/-- Clears `chainHasLocks` of the headers at the front that have it. -/
def clr : List Hdr → List Hdr
  | [] => []
  | h :: t => if h.chl = false then h :: t else unchl h :: clr t

theorem setHdr_tup (r : Recs) (l : Nat) (h : Hdr) (k : Nat) :
    (setHdr r l h k).tup = (r k).tup := by
  unfold setHdr; split
  · next e => subst e; rfl
  · rfl

theorem setHdr_same (r : Recs) (l : Nat) (h : Hdr) : (setHdr r l h l).hdr = h := by
  simp [setHdr]

theorem setHdr_other (r : Recs) {l k : Nat} (h : Hdr) (e : k ≠ l) :
    setHdr r l h k = r k := by
  simp [setHdr, e]

theorem cleanLoop_spec : ∀ (t : List Hdr) (g h : Hdr) (r : Recs) (fuel : Nat),
    Stored r (h :: g :: t) → t.length < fuel →
    Stored (cleanLoop fuel r h.loc) (h :: clr (g :: t)) ∧
    (∀ l, (cleanLoop fuel r h.loc l).tup = (r l).tup) ∧
    (∀ l, h.loc < l → cleanLoop fuel r h.loc l = r l)
  | t, g, h, r, 0, _, hf => by omega
  | t, g, h, r, fuel + 1, H, hf => by
    have e1 := H.2.1
    unfold cleanLoop
    rw [if_neg H.1, e1]
    by_cases hc : g.chl = false
    · rw [if_pos hc]
      have ec : clr (g :: t) = g :: t := by simp only [clr, hc, if_true]
      rw [ec]
      exact ⟨H, fun _ => rfl, fun _ _ => rfl⟩
    · rw [if_neg hc]
      simp only [clr, if_neg hc]
      have hlt := H.2.2.1
      -- the first write
      let r1 : Recs := setHdr r h.loc (unchl g)
      have H1 : Stored r1 (h :: unchl g :: t) := by
        refine ⟨H.1, setHdr_same _ _ _, hlt, ?_⟩
        refine Stored.head (g := g) ?_ rfl
        refine Stored.frame H.2.2.2 ?_
        intro k hk
        have : k.loc < h.loc := Stored.below H k hk
        show (setHdr r h.loc (unchl g) k.loc).hdr = _
        rw [setHdr_other]; omega
      have T1 : ∀ l, (r1 l).tup = (r l).tup := setHdr_tup _ _ _
      have O1 : ∀ l, h.loc < l → r1 l = r l := fun l hl => setHdr_other _ _ (by omega)
      show Stored (cleanLoop fuel r1 g.loc) _ ∧ (∀ l, (cleanLoop fuel r1 g.loc l).tup = _) ∧
        (∀ l, _ → cleanLoop fuel r1 g.loc l = _)
      cases t with
      | nil =>
        have g0 : g.loc = 0 := H.2.2.2
        have e : cleanLoop fuel r1 g.loc = r1 := by
          cases fuel with
          | zero => rfl
          | succ n => unfold cleanLoop; rw [if_pos g0]
        rw [e]
        exact ⟨H1, T1, O1⟩
      | cons k t =>
        have H2 : Stored r1 (unchl g :: k :: t) := H1.2.2.2
        have ih := cleanLoop_spec t k (unchl g) r1 fuel H2 (by simp at hf; omega)
        have eg : (unchl g).loc = g.loc := rfl
        rw [eg] at ih
        refine ⟨?_, fun l => by rw [ih.2.1, T1], fun l hl => ?_⟩
        · refine ⟨H.1, ?_, hlt, ih.1⟩
          rw [ih.2.2 _ hlt]; exact H1.2.1
        · rw [ih.2.2 _ (by omega), O1 _ hl]

/-- Cleaning from the page. -/
theorem cleanFlag_page (fuel : Nat) (page : Hdr) (t : List Hdr) (r : Recs)
    (H : Stored r (page :: t)) (hf : t.length < fuel) :
    ∃ t', clr (page :: t) = (cleanFlag fuel page r 0).1 :: t' ∧
    Stored (cleanFlag fuel page r 0).2 (clr (page :: t)) ∧
    (∀ l, ((cleanFlag fuel page r 0).2 l).tup = (r l).tup) ∧
    (∀ l, page.loc < l → (cleanFlag fuel page r 0).2 l = r l) := by
  unfold cleanFlag
  rw [if_pos rfl]
  by_cases hc : page.chl = false
  · have ec : clr (page :: t) = page :: t := by simp only [clr, hc, if_true]
    rw [if_pos hc, ec]
    exact ⟨t, rfl, H, fun _ => rfl, fun _ _ => rfl⟩
  · simp only [if_neg hc, clr]
    refine ⟨clr t, rfl, ?_⟩
    cases t with
    | nil =>
      have h0 : page.loc = 0 := H
      have e : cleanLoop fuel r page.loc = r := by
        cases fuel with
        | zero => rfl
        | succ n => unfold cleanLoop; rw [if_pos h0]
      rw [e]
      exact ⟨h0, fun _ => rfl, fun _ _ => rfl⟩
    | cons g t =>
      have := cleanLoop_spec t g page r fuel H (by simp at hf; omega)
      exact ⟨Stored.head this.1 rfl, this.2.1, this.2.2⟩

/-- Cleaning below the header `k`. -/
theorem cleanFlag_below (fuel : Nat) (page : Hdr) (P : List Hdr) (k : Hdr) (Q : List Hdr)
    (r : Recs) (H : Stored r (P ++ k :: Q)) (hf : Q.length < fuel) (hQ : Q ≠ []) :
    (cleanFlag fuel page r k.loc).1 = page ∧
    Stored (cleanFlag fuel page r k.loc).2 (P ++ k :: clr Q) ∧
    (∀ l, ((cleanFlag fuel page r k.loc).2 l).tup = (r l).tup) ∧
    (∀ l, k.loc < l → (cleanFlag fuel page r k.loc).2 l = r l) := by
  cases Q with
  | nil => exact absurd rfl hQ
  | cons g t =>
    have Hk : Stored r (k :: g :: t) := Stored.drop H
    have h0 : k.loc ≠ 0 := Hk.1
    unfold cleanFlag
    rw [if_neg h0]
    have := cleanLoop_spec t g k r fuel Hk (by simp at hf; omega)
    refine ⟨rfl, ?_, this.2⟩
    have S := this.1
    have hc : ∃ c' Q', clr (g :: t) = c' :: Q' ∧ c'.loc = g.loc := by
      unfold clr; split
      · exact ⟨g, t, rfl, rfl⟩
      · exact ⟨_, _, rfl, rfl⟩
    obtain ⟨c', Q', e, el⟩ := hc
    rw [e] at S ⊢
    exact Stored.graft H (Stored.tail S) S.2.2.1 S.2.1
      (fun l hl => by dsimp only; rw [this.2.2 l hl])

/-- Unlinks the header `c` below `k`. -/
theorem Stored.unlink {r : Recs} {P : List Hdr} {k c g g' : Hdr} {t : List Hdr}
    (H : Stored r (P ++ k :: c :: g :: t)) (e : g'.loc = g.loc) :
    Stored (setHdr r k.loc g') (P ++ k :: g' :: t) := by
  have Hk : Stored r (k :: c :: g :: t) := Stored.drop H
  have h1 := Hk.2.2.1
  have h2 := Hk.2.2.2.2.2.1
  refine Stored.graft H ?_ (by omega) (setHdr_same _ _ _)
    (fun l hl => by rw [setHdr_other]; omega)
  refine Stored.head (g := g) ?_ e
  refine Stored.frame Hk.2.2.2.2.2.2 ?_
  intro x hx
  have := Stored.below Hk.2.2.2 x hx
  rw [setHdr_other]; omega

/-- Replaces the header below `k` by one with the same location. -/
theorem Stored.replace {r : Recs} {P : List Hdr} {k g g' : Hdr} {t : List Hdr}
    (H : Stored r (P ++ k :: g :: t)) (e : g'.loc = g.loc) :
    Stored (setHdr r k.loc g') (P ++ k :: g' :: t) := by
  have Hk : Stored r (k :: g :: t) := Stored.drop H
  have h1 := Hk.2.2.1
  refine Stored.graft H ?_ (by omega) (setHdr_same _ _ _)
    (fun l hl => by rw [setHdr_other]; omega)
  refine Stored.head (g := g) ?_ e
  refine Stored.frame Hk.2.2.2 ?_
  intro x hx
  have : x.loc < k.loc := Stored.below Hk x hx
  rw [setHdr_other]; omega

/-- The flags tell the truth: a header without `chainHasLocks` has no lock and no
such flag below it. -/
def Flags : List Hdr → Prop
  | [] => True
  | h :: t => (h.chl = false → ∀ g ∈ t, g.lockOnly = false ∧ g.chl = false) ∧ Flags t

theorem Flags.drop : ∀ {P Q : List Hdr}, Flags (P ++ Q) → Flags Q
  | [], _, H => H
  | _ :: P, Q, H => Flags.drop (P := P) (Q := Q) H.2

/-- A header above a lock has the flag. -/
theorem Flags.above {P Q : List Hdr} {c : Hdr} (H : Flags (P ++ c :: Q))
    (hc : c.lockOnly = true ∨ c.chl = true) : ∀ h ∈ P, h.chl = true := by
  induction P with
  | nil => intro h hh; simp at hh
  | cons p P ih =>
    intro h hh
    rcases List.mem_cons.1 hh with e | hh
    · subst e
      cases hp : h.chl with
      | true => rfl
      | false =>
        have := H.1 hp c (by simp)
        rcases hc with hc | hc
        · rw [this.1] at hc; cases hc
        · rw [this.2] at hc; cases hc
    · exact ih H.2 h hh

/-- Without locks anywhere, clearing at the front clears everything. -/
theorem clr_all : ∀ {Q : List Hdr}, Flags Q → (∀ h ∈ Q, h.lockOnly = false) →
    ∀ h ∈ clr Q, h.lockOnly = false ∧ h.chl = false
  | [], _, _, h, hh => by simp [clr] at hh
  | q :: Q, F, N, h, hh => by
    unfold clr at hh
    split at hh
    · next hc =>
      rcases List.mem_cons.1 hh with e | hh
      · subst e; exact ⟨N _ (by simp), hc⟩
      · exact F.1 hc h hh
    · rcases List.mem_cons.1 hh with e | hh
      · subst e; exact ⟨N q (by simp), rfl⟩
      · exact clr_all F.2 (fun g hg => N g (List.mem_cons_of_mem _ hg)) h hh

/-- A list without locks and flags is fine. -/
theorem Flags.plain : ∀ {Q : List Hdr}, (∀ h ∈ Q, h.lockOnly = false ∧ h.chl = false) → Flags Q
  | [], _ => trivial
  | _ :: _, H => ⟨fun _ g hg => H g (List.mem_cons_of_mem _ hg),
      Flags.plain (fun g hg => H g (List.mem_cons_of_mem _ hg))⟩

/-- Replacing the end by one that has no more locks and flags. -/
theorem Flags.weaken : ∀ {P Q Q' : List Hdr}, Flags (P ++ Q) → Flags Q' →
    ((∀ g ∈ Q, g.lockOnly = false ∧ g.chl = false) → ∀ g ∈ Q', g.lockOnly = false ∧ g.chl = false) →
    Flags (P ++ Q')
  | [], _, _, _, H', _ => H'
  | p :: P, Q, Q', H, H', W => by
    refine ⟨?_, Flags.weaken (P := P) H.2 H' W⟩
    intro hp g hg
    rcases List.mem_append.1 hg with hg | hg
    · exact H.1 hp g (List.mem_append_left _ hg)
    · exact W (fun g hg => H.1 hp g (List.mem_append_right _ hg)) g hg

theorem clr_flagged : ∀ {P : List Hdr} {c : Hdr} {Q : List Hdr}, (∀ h ∈ P, h.chl = true) →
    c.chl = false → clr (P ++ c :: Q) = P.map unchl ++ c :: Q
  | [], c, Q, _, hc => by simp [clr, hc]
  | p :: P, c, Q, H, hc => by
    have hp : p.chl = true := H p (by simp)
    simp only [List.cons_append, clr, List.map_cons]
    rw [if_neg (by rw [hp]; simp), clr_flagged (fun h hh => H h (List.mem_cons_of_mem _ hh)) hc]

/-- Two lists with the same headers up to `chainHasLocks`, except that some locks
of ended transactions other than `me` are gone. -/
inductive Red (gone : Hdr → Prop) : List Hdr → List Hdr → Prop
  | nil : Red gone [] []
  | keep {h : Hdr} {l l' : List Hdr} (b : Bool) :
      Red gone l l' → Red gone (h :: l) ({ h with chl := b } :: l')
  | skip {h : Hdr} {l l' : List Hdr} : gone h → Red gone l l' → Red gone (h :: l) l'

theorem Red.refl {gone : Hdr → Prop} : ∀ (l : List Hdr), Red gone l l
  | [] => .nil
  | h :: l => by
    have := Red.keep (h := h) h.chl (Red.refl (gone := gone) l)
    exact this

theorem Red.append {gone : Hdr → Prop} {a a' b b' : List Hdr} (H : Red gone a a')
    (K : Red gone b b') : Red gone (a ++ b) (a' ++ b') := by
  induction H with
  | nil => exact K
  | keep c _ ih => exact .keep c ih
  | skip g _ ih => exact .skip g ih

theorem Red.trans {gone : Hdr → Prop} (G : ∀ h b, gone { h with chl := b } → gone h)
    {a b c : List Hdr} (H : Red gone a b) (K : Red gone b c) : Red gone a c := by
  induction H generalizing c with
  | nil => exact K
  | @keep h l l' x H ih =>
    cases K with
    | keep y K => exact .keep y (ih K)
    | skip g K => exact .skip (G _ _ g) (ih K)
  | skip g _ ih => exact .skip g (ih K)

theorem Red.clr {gone : Hdr → Prop} : ∀ (l : List Hdr), Red gone l (clr l)
  | [] => .nil
  | h :: l => by
    unfold RowLocks.clr
    split
    · exact .refl _
    · exact .keep false (Red.clr l)

theorem Red.map {gone : Hdr → Prop} : ∀ (l : List Hdr), Red gone l (l.map unchl)
  | [] => .nil
  | _ :: l => .keep false (Red.map l)

/-- Every header of the smaller list comes from the larger one. -/
theorem Red.mem {gone : Hdr → Prop} {a b : List Hdr} (H : Red gone a b) :
    ∀ h ∈ b, ∃ g ∈ a, h = { g with chl := h.chl } := by
  induction H with
  | nil => intro h hh; simp at hh
  | keep c _ ih =>
    intro h hh
    rcases List.mem_cons.1 hh with e | hh
    · exact ⟨_, List.mem_cons_self, by rw [e]⟩
    · obtain ⟨g, hg, e⟩ := ih h hh
      exact ⟨g, List.mem_cons_of_mem _ hg, e⟩
  | skip _ _ ih =>
    intro h hh
    obtain ⟨g, hg, e⟩ := ih h hh
    exact ⟨g, List.mem_cons_of_mem _ hg, e⟩

/-- Every header that is not a lock of an ended transaction stays. -/
theorem Red.mem' {gone : Hdr → Prop} {a b : List Hdr} (H : Red gone a b) :
    ∀ h ∈ a, ¬ gone h → ∃ c, { h with chl := c } ∈ b := by
  induction H with
  | nil => intro h hh; simp at hh
  | keep c _ ih =>
    intro h hh hn
    rcases List.mem_cons.1 hh with e | hh
    · exact ⟨c, by rw [e]; exact List.mem_cons_self⟩
    · obtain ⟨d, hd⟩ := ih h hh hn
      exact ⟨d, List.mem_cons_of_mem _ hd⟩
  | skip g _ ih =>
    intro h hh hn
    rcases List.mem_cons.1 hh with e | hh
    · subst e; exact absurd g hn
    · exact ih h hh hn

/-- A relation between headers that does not look at the flag is kept. -/
theorem Red.pairwise {gone : Hdr → Prop} {R : Hdr → Hdr → Prop}
    (hR : ∀ g h b c, R g h → R { g with chl := b } { h with chl := c })
    {a b : List Hdr} (H : Red gone a b) (P : a.Pairwise R) : b.Pairwise R := by
  induction H with
  | nil => exact P
  | keep c K ih =>
    rw [List.pairwise_cons] at P ⊢
    refine ⟨?_, ih P.2⟩
    intro h hh
    obtain ⟨g, hg, e⟩ := K.mem h hh
    rw [e]; exact hR _ _ _ _ (P.1 g hg)
  | skip _ _ ih =>
    rw [List.pairwise_cons] at P
    exact ih P.2

end Verif.RowLocks
