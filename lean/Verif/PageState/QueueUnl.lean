import Verif.PageState.QueueStep

/-!
# Preservation of the wait lists by the unlock
-/

namespace Verif.PageState

section
variable {s t : St} {g g' : Ghost}

/-- Where a node of one segment is not. -/
theorem QInv.sep (h : QInv s g) (b p : Nat) :
    (∀ x, x ∈ g.n b → x ∉ g.k b ∧ x ∉ g.r b ∧ x ∉ g.o b ∧ x ∉ g.w p) ∧
    (∀ x, x ∈ g.k b → x ∉ g.r b ∧ x ∉ g.o b ∧ x ∉ g.w p) ∧
    (∀ x, x ∈ g.r b → x ∉ g.o b ∧ x ∉ g.w p) ∧
    (∀ x, x ∈ g.o b → x ∉ g.w p) ∧
    (g.n b).Nodup ∧ (g.k b).Nodup ∧ (g.r b).Nodup ∧ (g.o b).Nodup := by
  have hnd := h.page_nodup b
  simp only [Ghost.list] at hnd
  have hw : ∀ x, x ∈ g.n b ∨ x ∈ g.k b ∨ x ∈ g.r b ∨ x ∈ g.o b → x ∉ g.w p :=
    fun x hx hxw => h.not_page_wake (mem_list_iff.2 hx) hxw
  obtain ⟨a1, a2, a3⟩ := List.nodup_append.1 hnd
  obtain ⟨b1, b2, b3⟩ := List.nodup_append.1 a2
  obtain ⟨c1, c2, c3⟩ := List.nodup_append.1 b2
  refine ⟨?_, ?_, ?_, ?_, a1, b1, c1, c2⟩
  · intro x hx
    have h1 : x ∉ g.k b ++ (g.r b ++ g.o b) := nodup_disj hnd hx
    simp only [List.mem_append, not_or] at h1
    exact ⟨h1.1, h1.2.1, h1.2.2, hw x (.inl hx)⟩
  · intro x hx
    have h1 : x ∉ (g.r b ++ g.o b) := nodup_disj a2 hx
    simp only [List.mem_append, not_or] at h1
    exact ⟨h1.1, h1.2, hw x (.inr (.inl hx))⟩
  · intro x hx
    exact ⟨nodup_disj b2 hx, hw x (.inr (.inr (.inl hx)))⟩
  · intro x hx
    exact hw x (.inr (.inr (.inr hx)))

/-- A waiter is moved to the wake list. -/
theorem qInv_remove (h : QInv s g) (hl : LockInv s) (p : Nat) (u : Unl) (c : Nat)
    (l : List Nat) (hpc : s.pc p = .walk u) (hcur : u.cur = some c) (hr : g.r u.b = c :: l) :
    QInv { s with
        next := upd (match u.prev with
          | none => s.next
          | some q => upd s.next q (s.next c)) c u.wakeHead,
        pc := upd s.pc p (.walk { u with
          newTail := if u.prev = none then s.next c else u.newTail,
          wakeHead := some c, cur := s.next c }) }
      { g with
        r := upd g.r u.b l, w := upd g.w p (c :: g.w p), loc := upd g.loc c (.wake p) } := by
  have hw : Walk s g p u := by have := h.unl p; rw [hpc] at this; exact this
  obtain ⟨sn, sk, sr, so, ndn, ndk, ndr, ndo⟩ := h.sep u.b p
  have hcr : c ∈ g.r u.b := by rw [hr]; exact List.mem_cons_self ..
  have hcl : c ∉ l := by rw [hr] at ndr; exact (List.nodup_cons.1 ndr).1
  have hrest : Chain s.next (s.next c) l u.prevTail := by
    have := hw.rest; rw [hr] at this; exact this.2
  -- the store into `next` of the previous kept node
  have hq : ∀ q, u.prev = some q → q ∈ g.k u.b := by
    intro q hq; rw [hw.prev] at hq; exact List.mem_of_getLast? hq
  have hne : ∀ x, x ∉ g.k u.b → x ≠ c →
      upd (match u.prev with
          | none => s.next
          | some q => upd s.next q (s.next c)) c u.wakeHead x = s.next x := by
    intro x hx hxc
    rw [upd_ne _ _ hxc]
    cases hq' : u.prev with
    | none => rfl
    | some q => exact upd_ne _ _ (fun hxq => hx (by rw [hxq]; exact hq _ hq'))
  have hmemall : ∀ x, x ∈ Ghost.list { g with
        r := upd g.r u.b l, w := upd g.w p (c :: g.w p), loc := upd g.loc c (.wake p) } u.b ↔
      (x ∈ g.n u.b ∨ x ∈ g.k u.b ∨ x ∈ l ∨ x ∈ g.o u.b) := by
    intro x; simp [Ghost.list, upd_same]
  have hcn : c ∉ Ghost.list { g with
        r := upd g.r u.b l, w := upd g.w p (c :: g.w p), loc := upd g.loc c (.wake p) } u.b := by
    rw [hmemall]
    rintro (h1 | h1 | h1 | h1)
    · exact (sn c h1).2.1 hcr
    · exact (sk c h1).1 hcr
    · exact hcl h1
    · exact (sr c hcr).1 h1
  have hsub : ∀ x, x ∈ Ghost.list { g with
        r := upd g.r u.b l, w := upd g.w p (c :: g.w p), loc := upd g.loc c (.wake p) } u.b →
      x ∈ g.list u.b := by
    intro x
    rw [hmemall, mem_list_iff, hr]
    rintro (h1 | h1 | h1 | h1) <;> simp [h1]
  refine h.unlStep p u.b (walk_uniq hl hpc) ?_ ?_ ?_ ?_ (.inr (by rw [hpc]; rfl)) ?_ ?_ rfl rfl
    ?_ (fun _ _ => rfl) ?_ ?_ ?_ ?_ ?_ ?_ ?_ ?_ ?_
  · intro b k; rw [hpc]; simp
  · intro b k; dsimp only; rw [upd_same]; simp
  · intro b k w; dsimp only; rw [upd_same]; simp
  · dsimp only; rw [upd_same]; simp
  · dsimp only; rw [upd_same]; rfl
  · intro q hq'; exact upd_ne _ _ hq'
  · intro x hx _
    rw [mem_list_iff] at hx
    simp only [not_or] at hx
    exact hne x hx.2.1 (fun hxc => hx.2.2.1 (hxc ▸ hcr))
  · intro d hd; simp [upd_ne _ _ hd]
  · intro v hv; exact upd_ne _ _ hv
  · dsimp only
    rw [upd_same]
    refine List.nodup_append.2 ⟨?_, ?_, ?_⟩
    · have hnd := h.page_nodup u.b
      have : Ghost.list { g with
        r := upd g.r u.b l, w := upd g.w p (c :: g.w p), loc := upd g.loc c (.wake p) } u.b
        = g.n u.b ++ (g.k u.b ++ (l ++ g.o u.b)) := by simp [Ghost.list, upd_same]
      rw [this]
      refine List.Sublist.nodup ?_ hnd
      simp only [Ghost.list, hr]
      exact (List.Sublist.refl _).append ((List.Sublist.refl _).append
        ((List.sublist_cons_self _ _).append (List.Sublist.refl _)))
    · exact List.nodup_cons.2 ⟨(sr c hcr).2, h.wake_nodup p⟩
    · intro x hx y hy hxy
      subst hxy
      rcases List.mem_cons.1 hy with h1 | h1
      · exact hcn (h1 ▸ hx)
      · exact h.not_page_wake (hsub x hx) h1
  · intro x
    dsimp only
    rw [upd_same, List.mem_append, List.mem_append, hmemall, mem_list_iff, hr]
    simp only [List.mem_cons]
    grind
  · intro x
    dsimp only
    simp only [upd_same]
    by_cases hxc : x = c
    · subst hxc; simp [hcn, upd_same]
    · rw [upd_ne _ _ hxc]
      by_cases h1 : x ∈ Ghost.list { g with
        r := upd g.r u.b l, w := upd g.w p (c :: g.w p), loc := upd g.loc c (.wake p) } u.b
      · rw [if_pos h1]; exact (h.page_mem u.b x).1 (hsub x h1)
      · rw [if_neg h1]
        by_cases h2 : x ∈ g.w p
        · rw [if_pos (List.mem_cons_of_mem _ h2)]; exact (h.wake_mem p x).1 h2
        · rw [if_neg (by simp [hxc, h2])]
  · dsimp only; rw [upd_same]; intro hc; exact absurd rfl hc
  · dsimp only; rw [upd_same]; exact .inr rfl
  · rw [hpc]; exact .inr rfl
  · dsimp only
    rw [upd_same]
    show Walk _ _ p _
    constructor <;> (try simp only [upd_same])
    · exact hw.new.congr (fun x hx => hne x (sn x hx).1 (fun hxc => (sn x hx).2.1 (hxc ▸ hcr)))
    · cases hk : (g.k u.b).getLast? with
      | none =>
        rw [hw.prev, hk]
        have : g.k u.b = [] := by simpa using hk
        rw [this]; simp [Chain]
      | some q =>
        rw [hw.prev, hk]
        simp only [reduceCtorEq, if_false]
        exact (hw.kept.setLast ndk hk).upd (fun hc => (sk c hc).1 hcr)
    · exact hw.prev
    · refine hrest.congr (fun x hx => hne x (fun hk => (sk x hk).1 ?_) (fun hxc => hcl (hxc ▸ hx)))
      rw [hr]; exact List.mem_cons_of_mem _ hx
    · exact hw.old.congr (fun x hx => hne x (fun hk => (sk x hk).2.1 hx)
        (fun hxc => (sr c hcr).1 (hxc ▸ hx)))
    · refine ⟨rfl, ?_⟩
      rw [upd_same]
      exact hw.wake.congr (fun x hx => hne x (fun hk => (sk x hk).2.2 hx)
        (fun hxc => (sr c hcr).2 (hxc ▸ hx)))
    · exact hw.exclPrev
    · exact hw.excl
    · intro he
      obtain ⟨e, h1, h2⟩ := hw.woken he
      exact ⟨e, List.mem_cons_of_mem _ h1, h2⟩
    · exact hw.oldWoken
    · exact hw.stay
    · intro x hx
      rcases hw.prevTail x hx with h1 | h1
      · exact .inl h1
      · exact .inr (List.mem_cons_of_mem _ h1)
    · intro x hx
      rcases hw.tail x hx with h1 | h1 | h1 | h1
      · exact .inl h1
      · rw [hr] at h1
        rcases List.mem_cons.1 h1 with h2 | h2
        · subst h2; exact .inr (.inr (.inr (List.mem_cons_self ..)))
        · exact .inr (.inl h2)
      · exact .inr (.inr (.inl h1))
      · exact .inr (.inr (.inr (List.mem_cons_of_mem _ h1)))

/-- The end of a walk: kept waiters and the older ones are joined. -/
theorem qInv_finish_none (h : QInv s g) (p : Nat) (u : Unl)
    (huq : ∀ v, v ≠ p → (s.pc v).unlPage ≠ some u.b)
    (hpc : s.pc p = .walk u) (hcur : u.cur = u.prevTail)
    (hex : u.exclWoken = true ∨ u.excl = none) :
    QInv { s with
        next := (unlPatch s.next u).1,
        pc := upd s.pc p (.ucas (unlPatch s.next u).2) }
      { g with
        k := upd g.k u.b [], r := upd g.r u.b [], o := upd g.o u.b (g.k u.b ++ g.o u.b) } := by
  have hw : Walk s g p u := by have := h.unl p; rw [hpc] at this; exact this
  obtain ⟨sn, sk, sr, so, ndn, ndk, ndr, ndo⟩ := h.sep u.b p
  have hr := hw.cur_eq h hcur
  have hlist : Ghost.list { g with
        k := upd g.k u.b [], r := upd g.r u.b [], o := upd g.o u.b (g.k u.b ++ g.o u.b) } u.b
      = g.list u.b := by
    simp [Ghost.list, upd_same, hr]
  have hf : (unlPatch s.next u).2.b = u.b ∧ (unlPatch s.next u).2.s = u.s ∧
      (unlPatch s.next u).2.wakeHead = u.wakeHead ∧
      (unlPatch s.next u).2.exclWoken = u.exclWoken ∧
      (unlPatch s.next u).2.split = u.split := by
    unfold unlPatch; split
    · exact ⟨rfl, rfl, rfl, rfl, rfl⟩
    · split <;> exact ⟨rfl, rfl, rfl, rfl, rfl⟩
  obtain ⟨hfb, hfs, hfw, hfe, hfsp⟩ := hf
  have hne : ∀ x, x ∉ g.k u.b → (unlPatch s.next u).1 x = s.next x := by
    intro x hx
    unfold unlPatch; split
    · rfl
    · split
      · rfl
      · rename_i q hq
        refine upd_ne _ _ (fun hxq => hx ?_)
        rw [hw.prev] at hq
        rw [hxq]; exact List.mem_of_getLast? hq
  have hchain : Chain (unlPatch s.next u).1 (unlPatch s.next u).2.newTail
      (g.k u.b ++ g.o u.b) none := by
    have hk := hw.kept
    rw [hcur] at hk
    refine Chain.append.2 ⟨u.patch, ?_, hw.old.congr (fun x hx => hne x (fun hk => (sk x hk).2.1 hx))⟩
    unfold unlPatch; split
    · rename_i heq; rw [heq] at hk; exact hk
    · split
      · rename_i hp
        rw [hw.prev] at hp
        have : g.k u.b = [] := by simpa using hp
        rw [this]; rfl
      · rename_i q hq
        rw [hw.prev] at hq
        exact hk.setLast ndk hq
  have hwk : g.k u.b ≠ [] → u.exclWoken = true := by
    intro hk
    cases hwk : u.exclWoken with
    | true => rfl
    | false =>
      have he := hw.excl hwk
      rcases hex with hex | hex
      · rw [hwk] at hex; cases hex
      rw [hex] at he
      exact absurd (List.head?_eq_none_iff.1 he.symm) hk
  refine h.unlStep p u.b huq ?_ ?_ ?_ ?_ (.inr (by rw [hpc]; rfl)) ?_ ?_ rfl rfl
    ?_ (fun _ _ => rfl) ?_ (fun _ _ => rfl) ?_ ?_ ?_ ?_ ?_ ?_ ?_
  · intro b k; rw [hpc]; simp
  · intro b k; dsimp only; rw [upd_same]; simp
  · intro b k w; dsimp only; rw [upd_same]; simp
  · dsimp only; rw [upd_same]; simp
  · dsimp only; rw [upd_same]; simp [Pc.actPage, hfb]
  · intro q hq'; exact upd_ne _ _ hq'
  · intro x hx _
    rw [mem_list_iff] at hx
    simp only [not_or] at hx
    exact hne x hx.2.1
  · intro d hd; simp [upd_ne _ _ hd]
  · rw [hlist]; exact h.nodup_all u.b p
  · intro x; rw [hlist]
  · intro x
    rw [hlist]
    by_cases hx : x ∈ g.list u.b
    · simp [hx, (h.page_mem u.b x).1 hx]
    · by_cases hx2 : x ∈ g.w p
      · simp [hx, hx2, (h.wake_mem p x).1 hx2]
      · simp [hx, hx2]
  · dsimp only; rw [upd_same]; intro hc; simp [Pc.unlPage, hfb] at hc
  · dsimp only; rw [upd_same]; right; simp [Pc.unlPage, hfb]
  · rw [hpc]; exact .inr rfl
  · dsimp only
    rw [upd_same]
    show Ucas _ _ p _
    constructor <;> (try rw [hfb]) <;> (try simp only [upd_same])
    · rw [hfs]; exact hw.new.congr (fun x hx => hne x (sn x hx).1)
    · exact hchain
    · rw [hfw]; exact hw.wake.congr (fun x hx => hne x (fun hk => (sk x hk).2.2 hx))
    · rw [hfe]; exact hw.woken
    · rw [hfe]
      intro hko
      by_cases hk : g.k u.b = []
      · rw [hk] at hko; exact hw.oldWoken hko
      · exact hwk hk
    · rw [hfsp]
      intro x hx
      exact hw.stay x (List.mem_append.1 hx)
    · rw [hfs]
      intro x hx
      rcases hw.tail x hx with h1 | h1 | h1 | h1
      · exact .inl (List.mem_append_left _ h1)
      · rw [hr] at h1; cases h1
      · exact .inl (List.mem_append_right _ h1)
      · exact .inr h1

/-- The exclusive waiter is the first kept one; it is moved to the wake list. -/
theorem qInv_excl (h : QInv s g) (p : Nat) (u : Unl) (e : Nat)
    (huq : ∀ v, v ≠ p → (s.pc v).unlPage ≠ some u.b)
    (hpc : s.pc p = .walk u) (hex : u.excl = some e) (hnw : u.exclWoken = false) :
    ∃ l, g.k u.b = e :: l ∧ QInv { s with
        next := (unlExcl s.next u).1,
        pc := upd s.pc p (.walk (unlExcl s.next u).2) }
      { g with
        k := upd g.k u.b l, w := upd g.w p (e :: g.w p), loc := upd g.loc e (.wake p) } := by
  have hw : Walk s g p u := by have := h.unl p; rw [hpc] at this; exact this
  obtain ⟨sn, sk, sr, so, ndn, ndk, ndr, ndo⟩ := h.sep u.b p
  obtain ⟨l, hk⟩ : ∃ l, g.k u.b = e :: l := by
    have he := hw.excl hnw
    rw [hex] at he
    cases hk : g.k u.b with
    | nil => rw [hk] at he; cases he
    | cons a l =>
      rw [hk] at he
      have : e = a := by simpa using he
      exact ⟨l, by rw [this]⟩
  have hek : e ∈ g.k u.b := by rw [hk]; exact List.mem_cons_self ..
  have hel : e ∉ l := by rw [hk] at ndk; exact (List.nodup_cons.1 ndk).1
  have hnd_l : l.Nodup := by rw [hk] at ndk; exact (List.nodup_cons.1 ndk).2
  have hkept := hw.kept
  rw [hk] at hkept
  have hnx : (unlExcl s.next u).1 = upd s.next e u.wakeHead := by
    simp [unlExcl, hex, hnw, hw.exclPrev]
  have hu2 : (unlExcl s.next u).2 = { u with
      exclWoken := true, newTail := s.next e, wakeHead := some e,
      prev := if u.prev = some e then none else u.prev } := by
    simp [unlExcl, hex, hnw, hw.exclPrev]
  refine ⟨l, hk, ?_⟩
  rw [hnx, hu2]
  have hne : ∀ x, x ≠ e → upd s.next e u.wakeHead x = s.next x := fun x hx => upd_ne _ _ hx
  have hmemall : ∀ x, x ∈ Ghost.list { g with
        k := upd g.k u.b l, w := upd g.w p (e :: g.w p), loc := upd g.loc e (.wake p) } u.b ↔
      (x ∈ g.n u.b ∨ x ∈ l ∨ x ∈ g.r u.b ∨ x ∈ g.o u.b) := by
    intro x; simp [Ghost.list, upd_same]
  have hcn : e ∉ Ghost.list { g with
        k := upd g.k u.b l, w := upd g.w p (e :: g.w p), loc := upd g.loc e (.wake p) } u.b := by
    rw [hmemall]
    rintro (h1 | h1 | h1 | h1)
    · exact (sn e h1).1 hek
    · exact hel h1
    · exact (sk e hek).1 h1
    · exact (sk e hek).2.1 h1
  have hsub : ∀ x, x ∈ Ghost.list { g with
        k := upd g.k u.b l, w := upd g.w p (e :: g.w p), loc := upd g.loc e (.wake p) } u.b →
      x ∈ g.list u.b := by
    intro x
    rw [hmemall, mem_list_iff, hk]
    rintro (h1 | h1 | h1 | h1) <;> simp [h1]
  refine h.unlStep p u.b huq ?_ ?_ ?_ ?_ (.inr (by rw [hpc]; rfl)) ?_ ?_ rfl rfl
    ?_ (fun _ _ => rfl) ?_ ?_ ?_ ?_ ?_ ?_ ?_ ?_ ?_
  · intro b k; rw [hpc]; simp
  · intro b k; dsimp only; rw [upd_same]; simp
  · intro b k w; dsimp only; rw [upd_same]; simp
  · dsimp only; rw [upd_same]; simp
  · dsimp only; rw [upd_same]; rfl
  · intro q hq'; exact upd_ne _ _ hq'
  · intro x hx _
    rw [mem_list_iff] at hx
    simp only [not_or] at hx
    exact hne x (fun hxe => hx.2.1 (hxe ▸ hek))
  · intro d hd; simp [upd_ne _ _ hd]
  · intro v hv; exact upd_ne _ _ hv
  · dsimp only
    rw [upd_same]
    refine List.nodup_append.2 ⟨?_, ?_, ?_⟩
    · have hnd := h.page_nodup u.b
      have : Ghost.list { g with
        k := upd g.k u.b l, w := upd g.w p (e :: g.w p), loc := upd g.loc e (.wake p) } u.b
        = g.n u.b ++ (l ++ (g.r u.b ++ g.o u.b)) := by simp [Ghost.list, upd_same]
      rw [this]
      refine List.Sublist.nodup ?_ hnd
      simp only [Ghost.list, hk]
      exact (List.Sublist.refl _).append ((List.sublist_cons_self _ _).append (List.Sublist.refl _))
    · exact List.nodup_cons.2 ⟨(sk e hek).2.2, h.wake_nodup p⟩
    · intro x hx y hy hxy
      subst hxy
      rcases List.mem_cons.1 hy with h1 | h1
      · exact hcn (h1 ▸ hx)
      · exact h.not_page_wake (hsub x hx) h1
  · intro x
    dsimp only
    rw [upd_same, List.mem_append, List.mem_append, hmemall, mem_list_iff, hk]
    simp only [List.mem_cons]
    grind
  · intro x
    dsimp only
    simp only [upd_same]
    by_cases hxc : x = e
    · subst hxc; simp [hcn, upd_same]
    · rw [upd_ne _ _ hxc]
      by_cases h1 : x ∈ Ghost.list { g with
        k := upd g.k u.b l, w := upd g.w p (e :: g.w p), loc := upd g.loc e (.wake p) } u.b
      · rw [if_pos h1]; exact (h.page_mem u.b x).1 (hsub x h1)
      · rw [if_neg h1]
        by_cases h2 : x ∈ g.w p
        · rw [if_pos (List.mem_cons_of_mem _ h2)]; exact (h.wake_mem p x).1 h2
        · rw [if_neg (by simp [hxc, h2])]
  · dsimp only; rw [upd_same]; intro hc; exact absurd rfl hc
  · dsimp only; rw [upd_same]; exact .inr rfl
  · rw [hpc]; exact .inr rfl
  · dsimp only
    rw [upd_same]
    show Walk _ _ p _
    have hstay := hw.stay e (.inl hek)
    have hlw : lockWaiter s e := by
      simp only [shouldWake, Bool.or_eq_false_iff] at hstay
      exact ⟨by simpa using hstay.1.2, hstay.1.1⟩
    constructor <;> (try simp only [upd_same])
    · exact hw.new.congr (fun x hx => hne x (fun hxe => (sn x hx).1 (hxe ▸ hek)))
    · exact hkept.2.upd hel
    · rw [hw.prev, hk]
      cases l with
      | nil => simp
      | cons a l =>
        rw [List.getLast?_cons_cons]
        have : (a :: l).getLast? ≠ some e := by
          intro hc; exact hel (List.mem_of_getLast? hc)
        rw [if_neg this]
    · exact hw.rest.congr (fun x hx => hne x (fun hxe => (sk e hek).1 (hxe ▸ hx)))
    · exact hw.old.congr (fun x hx => hne x (fun hxe => (sk e hek).2.1 (hxe ▸ hx)))
    · refine ⟨rfl, ?_⟩
      rw [upd_same]
      exact hw.wake.congr (fun x hx => hne x (fun hxe => (sk e hek).2.2 (hxe ▸ hx)))
    · exact hw.exclPrev
    · intro hc; cases hc
    · intro _; exact ⟨e, List.mem_cons_self .., hlw⟩
    · intro _; trivial
    · intro x hx
      exact hw.stay x (by
        rcases hx with hx | hx
        · left; rw [hk]; exact List.mem_cons_of_mem _ hx
        · exact .inr hx)
    · intro x hx
      rcases hw.prevTail x hx with h1 | h1
      · exact .inl h1
      · exact .inr (List.mem_cons_of_mem _ h1)
    · intro x hx
      rcases hw.tail x hx with h1 | h1 | h1 | h1
      · rw [hk] at h1
        rcases List.mem_cons.1 h1 with h2 | h2
        · subst h2; exact .inr (.inr (.inr (List.mem_cons_self ..)))
        · exact .inl h2
      · exact .inr (.inl h1)
      · exact .inr (.inr (.inl h1))
      · exact .inr (.inr (.inr (List.mem_cons_of_mem _ h1)))

theorem upd_upd {α : Type} (f : Nat → α) (a : Nat) (v w : α) :
    upd (upd f a v) a w = upd f a w := by
  funext x; simp only [upd]; split <;> rfl

/-- What a step of the unlock of page `b` by `p` may do to the places. -/
structure GRel (g g' : Ghost) (p b : Nat) : Prop where
  none : ∀ q, g.loc q = .none → g'.loc q = .none
  w : ∀ v, v ≠ p → g'.w v = g.w v
  list : ∀ c, c ≠ b → g'.list c = g.list c
  sub : ∀ x, x ∈ g'.list b → x ∈ g.list b

theorem GRel.trans {g g' g'' : Ghost} {p b : Nat} (h : GRel g g' p b) (h' : GRel g' g'' p b) :
    GRel g g'' p b where
  none q hq := h'.none q (h.none q hq)
  w v hv := by rw [h'.w v hv, h.w v hv]
  list c hc := by rw [h'.list c hc, h.list c hc]
  sub x hx := h.sub x (h'.sub x hx)

theorem gRel_finish (g : Ghost) (p b : Nat) : GRel g { g with
    k := upd g.k b [], r := upd g.r b [], o := upd g.o b (g.k b ++ g.o b) } p b where
  none q hq := hq
  w v _ := rfl
  list c hc := by simp [Ghost.list, upd_ne _ _ hc]
  sub x hx := by
    simp only [mem_list_iff, upd_same, List.mem_append] at hx
    rw [mem_list_iff]
    rcases hx with h1 | h1 | h1 | h1 | h1
    · exact .inl h1
    · cases h1
    · cases h1
    · exact .inr (.inl h1)
    · exact .inr (.inr (.inr h1))

theorem QInv.gRel_remove (h : QInv s g) (p b c : Nat) (l : List Nat) (hr : g.r b = c :: l) :
    GRel g { g with
      r := upd g.r b l, w := upd g.w p (c :: g.w p), loc := upd g.loc c (.wake p) } p b where
  none q hq := by
    have : q ≠ c := by
      intro hqc; subst hqc
      have := (h.page_mem b q).1 (mem_list_iff.2 (.inr (.inr (.inl (by rw [hr]; simp)))))
      rw [hq] at this; cases this
    dsimp only; rw [upd_ne _ _ this]; exact hq
  w v hv := upd_ne _ _ hv
  list d hd := by simp [Ghost.list, upd_ne _ _ hd]
  sub x hx := by
    simp only [mem_list_iff, upd_same] at hx
    rw [mem_list_iff, hr]
    rcases hx with h1 | h1 | h1 | h1 <;> simp [h1]

theorem QInv.gRel_excl (h : QInv s g) (p b c : Nat) (l : List Nat) (hk : g.k b = c :: l) :
    GRel g { g with
      k := upd g.k b l, w := upd g.w p (c :: g.w p), loc := upd g.loc c (.wake p) } p b where
  none q hq := by
    have : q ≠ c := by
      intro hqc; subst hqc
      have := (h.page_mem b q).1 (mem_list_iff.2 (.inr (.inl (by rw [hk]; simp))))
      rw [hq] at this; cases this
    dsimp only; rw [upd_ne _ _ this]; exact hq
  w v hv := upd_ne _ _ hv
  list d hd := by simp [Ghost.list, upd_ne _ _ hd]
  sub x hx := by
    simp only [mem_list_iff, upd_same] at hx
    rw [mem_list_iff, hk]
    rcases hx with h1 | h1 | h1 | h1 <;> simp [h1]

theorem gRel_keep (g : Ghost) (p b c : Nat) (l : List Nat) (hr : g.r b = c :: l) :
    GRel g { g with k := upd g.k b (g.k b ++ [c]), r := upd g.r b l } p b where
  none q hq := hq
  w v _ := rfl
  list d hd := by simp [Ghost.list, upd_ne _ _ hd]
  sub x hx := by
    simp only [mem_list_iff, upd_same, List.mem_append] at hx
    rw [mem_list_iff, hr]
    rcases hx with h1 | (h1 | h1) | h1 | h1 <;> simp_all

/-- One step of the walk. -/
theorem qInv_walk (h : QInv s g) (hl : LockInv s) (p : Nat) (u : Unl)
    (hpc : s.pc p = .walk u) : ∃ g', QInv (stepWalk s p u) g' ∧ GRel g g' p u.b := by
  have hw : Walk s g p u := by have := h.unl p; rw [hpc] at this; exact this
  have huq := walk_uniq hl hpc
  unfold stepWalk
  split
  · rename_i hc
    cases hwk : u.exclWoken with
    | true =>
      have : unlExcl s.next u = (s.next, u) := by
        unfold unlExcl; split
        · rfl
        · simp [hwk]
      rw [this]
      exact ⟨_, qInv_finish_none h p u huq hpc hc (.inl hwk), gRel_finish g p u.b⟩
    | false =>
      cases hex : u.excl with
      | none =>
        have : unlExcl s.next u = (s.next, u) := by
          unfold unlExcl; rw [hex]
        rw [this]
        exact ⟨_, qInv_finish_none h p u huq hpc hc (.inr hex), gRel_finish g p u.b⟩
      | some e =>
        obtain ⟨l, hk, h1⟩ := qInv_excl h p u e huq hpc hex hwk
        have hub : (unlExcl s.next u).2.b = u.b := by
          simp [unlExcl, hex, hwk]
        have hu2 : (unlExcl s.next u).2 = { u with
            exclWoken := true, newTail := s.next e, wakeHead := some e,
            prev := if u.prev = some e then none else u.prev } := by
          simp [unlExcl, hex, hwk, hw.exclPrev]
        have h2 := qInv_finish_none h1 p (unlExcl s.next u).2 ?_ (upd_same _ _ _)
          (by rw [hu2]; exact hc) (.inl (by rw [hu2]))
        · dsimp only at h2
          rw [upd_upd] at h2
          refine ⟨_, h2, (h.gRel_excl p u.b e l hk).trans ?_⟩
          have h3 := gRel_finish { g with
            k := upd g.k u.b l, w := upd g.w p (e :: g.w p), loc := upd g.loc e (.wake p) } p u.b
          rw [hub]
          exact h3
        · intro v hv
          dsimp only
          rw [upd_ne _ _ hv, hu2]
          exact huq v hv
  · rename_i hc
    obtain ⟨c, l, h1, h2, h3⟩ := hw.cur_ne hc
    rw [h1]
    dsimp only
    unfold walkNode
    split
    · exact ⟨_, qInv_remove h hl p u c l hpc h1 h2, h.gRel_remove p u.b c l h2⟩
    · rename_i hsw
      exact ⟨_, qInv_keep h hl p u _ c l hpc h1 h2 (by simpa using hsw) rfl,
        gRel_keep g p u.b c l h2⟩

/-- The compare-and-exchange of the unlock. -/
theorem qInv_ucas (h : QInv s g) (hl : LockInv s) (p : Nat) (u : Unl)
    (hpc : s.pc p = .ucas u) :
    QInv (stepUcas s p u) (if s.word u.b = u.s then
        { g with n := upd g.n u.b (g.o u.b), o := upd g.o u.b [] }
      else { g with r := upd g.r u.b (g.n u.b), n := upd g.n u.b [] }) ∧
    (s.word u.b = u.s → g.n u.b = []) := by
  have hw : Ucas s g p u := by have := h.unl p; rw [hpc] at this; exact this
  obtain ⟨sn, sk, sr, so, ndn, ndk, ndr, ndo⟩ := h.sep u.b p
  have huq : ∀ v, v ≠ p → (s.pc v).unlPage ≠ some u.b :=
    fun v hv hc => hv (hl.unl_unique (p := p) (w := some u.s) (by rw [hpc]; rfl) hc).symm
  have htn : ∀ x, u.s.tail = some x → x ∉ g.n u.b := by
    intro x hx hxn
    rcases hw.tail x hx with h1 | h1
    · exact (sn x hxn).2.2.1 h1
    · exact (sn x hxn).2.2.2 h1
  unfold stepUcas
  split
  · rename_i hww
    have hn : g.n u.b = [] := by
      have := hw.new
      rw [hww] at this
      exact Chain.self_nil htn this
    refine ⟨?_, fun _ => hn⟩
    have hlist : Ghost.list { g with n := upd g.n u.b (g.o u.b), o := upd g.o u.b [] } u.b
        = g.list u.b := by
      simp [Ghost.list, upd_same, hn, hw.k_nil, hw.r_nil]
    refine h.unlStep p u.b huq ?_ ?_ ?_ ?_ (.inr (by rw [hpc]; rfl)) ?_ ?_ rfl rfl
      (fun _ _ _ => rfl) ?_ ?_ (fun _ _ => rfl) ?_ ?_ ?_ ?_ ?_ ?_ ?_
    · intro b k; rw [hpc]; simp
    · intro b k; dsimp only; rw [upd_same]; simp
    · intro b k w; dsimp only; rw [upd_same]; simp
    · dsimp only; rw [upd_same]; simp
    · dsimp only; rw [upd_same]; rfl
    · intro q hq'; exact upd_ne _ _ hq'
    · intro c hc; dsimp only; rw [upd_ne _ _ hc]
    · intro d hd; simp [upd_ne _ _ hd]
    · rw [hlist]; exact h.nodup_all u.b p
    · intro x; rw [hlist]
    · intro x
      rw [hlist]
      by_cases hx : x ∈ g.list u.b
      · simp [hx, (h.page_mem u.b x).1 hx]
      · by_cases hx2 : x ∈ g.w p
        · simp [hx, hx2, (h.wake_mem p x).1 hx2]
        · simp [hx, hx2]
    · intro _
      dsimp only
      rw [upd_same, upd_same, upd_same]
      exact ⟨hw.old, hw.k_nil, hw.r_nil, rfl⟩
    · dsimp only; rw [upd_same]; exact .inl rfl
    · rw [hpc]; exact .inr rfl
    · dsimp only
      rw [upd_same]
      exact hw.wake
  · rename_i hww
    refine ⟨?_, fun hc => absurd hc hww⟩
    have hlist : ∀ x, x ∈ Ghost.list { g with r := upd g.r u.b (g.n u.b), n := upd g.n u.b [] } u.b
        ↔ x ∈ g.list u.b := by
      intro x
      simp [Ghost.list, upd_same, hw.k_nil, hw.r_nil]
    have hlist' : Ghost.list { g with r := upd g.r u.b (g.n u.b), n := upd g.n u.b [] } u.b
        = g.list u.b := by
      simp [Ghost.list, upd_same, hw.k_nil, hw.r_nil]
    have hpc' : ∀ c, (s.goto p c).pc p = c := fun c => upd_same _ _ _
    refine h.unlStep p u.b huq ?_ ?_ ?_ ?_ (.inr (by rw [hpc]; rfl)) ?_ ?_ rfl rfl
      (fun _ _ _ => rfl) (fun _ _ => rfl) ?_ (fun _ _ => rfl) ?_ ?_ ?_ ?_ ?_ ?_ ?_
    · intro b k; rw [hpc]; simp
    · intro b k; rw [hpc']; simp
    · intro b k w; rw [hpc']; simp
    · rw [hpc']; simp
    · rw [hpc']; rfl
    · intro q hq'; exact upd_ne _ _ hq'
    · intro d hd; simp [upd_ne _ _ hd]
    · rw [hlist']; exact h.nodup_all u.b p
    · intro x; rw [hlist']
    · intro x
      rw [hlist']
      by_cases hx : x ∈ g.list u.b
      · simp [hx, (h.page_mem u.b x).1 hx]
      · by_cases hx2 : x ∈ g.w p
        · simp [hx, hx2, (h.wake_mem p x).1 hx2]
        · simp [hx, hx2]
    · rw [hpc']; intro hc; exact absurd rfl hc
    · rw [hpc']; exact .inr rfl
    · rw [hpc]; exact .inr rfl
    · rw [hpc']
      show Walk _ _ p _
      constructor <;> (try simp only [unlStart, St.goto, upd_same, hw.k_nil])
      · rfl
      · rfl
      · rfl
      · exact hw.new
      · exact hw.old
      · exact hw.wake
      · intro _; rfl
      · exact hw.woken
      · exact hw.oldWoken
      · intro x hx
        rcases hx with hx | hx
        · cases hx
        · exact hw.stay x hx
      · exact hw.tail
      · intro x hx
        have hnew := hw.new
        rw [hx] at hnew
        cases hn : g.n u.b with
        | nil =>
          rw [hn] at hnew
          rcases hw.tail x hnew.symm with h1 | h1
          · exact .inr (.inr (.inl h1))
          · exact .inr (.inr (.inr h1))
        | cons y l =>
          rw [hn] at hnew
          have : x = y := by have := hnew.1; simpa using this
          subst this
          simp

end

end Verif.PageState
