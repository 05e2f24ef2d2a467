import Verif.Rewind.Codec
/-
Proofs about `Verif.Rewind.Codec`.
-/
namespace Verif.Rewind

theorem fillSubs_eq (o subs stale cnt arr) : fillSubs o subs stale cnt arr =
    if h : cnt < subs.length then
      let arr' := put arr (cnt % perItem) subs[cnt]
      if cnt + 1 = subs.length then [.subxids subs.length o arr']
      else if (cnt + 1) % perItem = 0 then
        .subxids subs.length o arr' :: fillSubs o subs stale (cnt + 1) (stale ((cnt + 1) / perItem))
      else fillSubs o subs stale (cnt + 1) arr'
    else [] := by
  rw [fillSubs]

theorem fillSubs_length (o subs stale) : ∀ (m cnt : Nat) (arr), subs.length - cnt = m →
    cnt < subs.length →
    (fillSubs o subs stale cnt arr).length = (subs.length - 1) / perItem - cnt / perItem + 1 := by
  intro m
  induction m using Nat.strongRecOn with
  | _ m ih =>
    intro cnt arr hm hc
    rw [fillSubs_eq, dif_pos hc]
    simp only
    split
    · rename_i he
      have : subs.length - 1 = cnt := by omega
      simp [this]
    · rename_i he
      split
      · rename_i hp
        rw [List.length_cons, ih (subs.length - (cnt + 1)) (by omega) (cnt + 1) _ rfl (by omega)]
        simp only [perItem] at *
        omega
      · rename_i hp
        rw [ih (subs.length - (cnt + 1)) (by omega) (cnt + 1) _ rfl (by omega)]
        simp only [perItem] at *
        omega

theorem pack_length (stale t) : (pack stale t).length = nitems t.subs.length := by
  simp only [pack, nitems, List.length_cons]
  split
  · rename_i h
    rw [fillSubs_length _ _ _ _ 0 _ rfl (by omega)]
    simp only [perItem]
    omega
  · rfl

/-- `arr` holds the subtransactions `lo ≤ k < hi` of one item. -/
def Holds (subs : List Nat) (arr : Nat → Nat) (lo hi : Nat) : Prop :=
  ∀ k, lo ≤ k → k < hi → subs[k]? = some (arr (k % perItem))

/-- Taking the subtransactions `lo ≤ k < hi` out of one item. -/
theorem gather_ok (subs : List Nat) (arr : Nat → Nat) (lo : Nat) (hlo : lo % perItem = 0) :
    ∀ (hi : Nat) (s : Nat → Nat), lo < hi → hi ≤ lo + perItem → Holds subs arr lo hi →
      ∃ s', gather arr hi s = some (lo, s') ∧
        (∀ k, lo ≤ k → k < hi → subs[k]? = some (s' k)) ∧ (∀ k, hi ≤ k → s' k = s k) := by
  intro hi
  induction hi with
  | zero => intro s h; omega
  | succ c ih =>
    intro s h1 h2 h3
    rw [gather]
    have hc := h3 c (by omega) (by omega)
    by_cases hcl : c = lo
    · subst hcl
      refine ⟨put s c (arr (c % perItem)), ?_, ?_, ?_⟩
      · by_cases h0 : c = 0
        · subst h0; simp
        · simp [h0, hlo]
      · intro k hk1 hk2
        have : k = c := by omega
        subst this
        simpa [put] using hc
      · intro k hk
        have : k ≠ c := by omega
        simp [put, this]
    · have h0 : c ≠ 0 := by omega
      have hm : c % perItem ≠ 0 := by simp only [perItem] at *; omega
      rw [if_neg h0, if_neg hm]
      obtain ⟨s', e, a, b⟩ := ih (put s c (arr (c % perItem))) (by omega) (by omega)
        (fun k h4 h5 => h3 k h4 (by omega))
      refine ⟨s', e, ?_, ?_⟩
      · intro k hk1 hk2
        by_cases hkc : k = c
        · subst hkc
          rw [b k (by omega)]
          simpa [put] using hc
        · exact a k hk1 (by omega)
      · intro k hk
        rw [b k (by omega)]
        have : k ≠ c := by omega
        simp [put, this]

theorem rwItems_append (stop s) (a b : List Item) : rwItems stop s (a ++ b) =
    (match rwItems stop s a with
     | .go s' => rwItems stop s' b
     | r => r) := by
  induction a generalizing s with
  | nil => simp [rwItems]
  | cons i is ih =>
    simp only [List.cons_append, rwItems]
    cases rwItem stop s i <;> simp [ih]

/-- State of the reader after the subtransactions `lo ≤ k` were taken. -/
def Got (subs : List Nat) (out : List Undone) (lo : Nat) (s : RwSt) : Prop :=
  s.nsub = subs.length ∧ s.cnt = lo ∧ s.out = out ∧ (s.got = true ↔ lo = 0) ∧
    ∀ k, lo ≤ k → k < subs.length → subs[k]? = some (s.subs k)

/-- Reading the subtransaction items backwards. -/
theorem fillSubs_read (stop o) (subs : List Nat) (stale) (s0 : RwSt) (h0 : s0.nsub = 0)
    (hg : s0.got = false) :
    ∀ (m cnt : Nat) (arr), subs.length - cnt = m → cnt < subs.length →
      Holds subs arr (cnt - cnt % perItem) cnt →
      ∃ s, rwItems stop s0 (fillSubs o subs stale cnt arr).reverse = .go s ∧
        Got subs s0.out (cnt - cnt % perItem) s := by
  intro m
  induction m using Nat.strongRecOn with
  | _ m ih =>
    intro cnt arr hm hc hh
    have hh' : Holds subs (put arr (cnt % perItem) subs[cnt]) (cnt - cnt % perItem) (cnt + 1) := by
      intro k h1 h2
      by_cases hk : k = cnt
      · subst hk; simp [put, List.getElem?_eq_getElem hc]
      · have hne : k % perItem ≠ cnt % perItem := by simp only [perItem] at *; omega
        rw [hh k h1 (by omega)]
        simp [put, hne]
    have hmod : (cnt - cnt % perItem) % perItem = 0 := by simp only [perItem]; omega
    rw [fillSubs_eq, dif_pos hc]
    simp only
    split
    · rename_i he
      obtain ⟨s', e, a, b⟩ := gather_ok subs (put arr (cnt % perItem) subs[cnt])
        (cnt - cnt % perItem) hmod (cnt + 1) (fun _ => 0) (by omega)
        (by simp only [perItem]; omega) hh'
      refine ⟨{ s0 with nsub := subs.length, cnt := cnt - cnt % perItem, subs := s'
                        got := if cnt - cnt % perItem = 0 then true else s0.got }, ?_, ?_⟩
      · simp only [List.reverse_singleton, rwItems, rwItem, h0, if_pos, ← he, e]
      · refine ⟨rfl, rfl, rfl, ?_, ?_⟩
        · simp only [hg]
          split <;> simp_all
        · intro k h1 h2
          exact a k h1 (by omega)
    · rename_i he
      split
      · rename_i hp
        obtain ⟨s, e, g⟩ := ih (subs.length - (cnt + 1)) (by omega) (cnt + 1)
          (stale ((cnt + 1) / perItem)) rfl (by omega) (by intro k h1 h2; omega)
        have hz : cnt + 1 - (cnt + 1) % perItem = cnt + 1 := by omega
        rw [hz] at g
        obtain ⟨g1, g2, g3, g4, g5⟩ := g
        obtain ⟨s', e', a, b⟩ := gather_ok subs (put arr (cnt % perItem) subs[cnt])
          (cnt - cnt % perItem) hmod (cnt + 1) s.subs (by omega)
          (by simp only [perItem]; omega) hh'
        have hn : s.nsub ≠ 0 := by omega
        have hgf : s.got = false := by
          cases hs : s.got with
          | false => rfl
          | true => have := g4.1 hs; omega
        refine ⟨{ s with cnt := cnt - cnt % perItem, subs := s'
                         got := if cnt - cnt % perItem = 0 then true else s.got }, ?_, ?_⟩
        · rw [List.reverse_cons, rwItems_append, e]
          simp only [rwItems, rwItem, hn, if_false, g2, e']
        · refine ⟨g1, rfl, g3, ?_, ?_⟩
          · simp only [hgf]
            split <;> simp_all
          · intro k h1 h2
            by_cases hk : k < cnt + 1
            · exact a k h1 hk
            · show subs[k]? = some (s' k)
              rw [b k (by omega)]; exact g5 k (by omega) h2
      · rename_i hp
        have hz : cnt + 1 - (cnt + 1) % perItem = cnt - cnt % perItem := by
          simp only [perItem] at *; omega
        obtain ⟨s, e, g⟩ := ih (subs.length - (cnt + 1)) (by omega) (cnt + 1)
          (put arr (cnt % perItem) subs[cnt]) rfl (by omega) (by rw [hz]; exact hh')
        rw [hz] at g
        exact ⟨s, e, g⟩

/-- What undoing a transaction must do. -/
def undoneOf (t : Txn) : Undone :=
  ⟨t.oxid.map (fun o => (o, t.undo)), t.xid.map (fun x => (x, t.subs))⟩

/-- Subtransactions belong to a transaction with an `xid` (asserted at rewind.c:1715 and
1827). -/
def Txn.Ok (t : Txn) : Prop := t.subs ≠ [] → t.xid ≠ none

/-- Reader between two transactions. -/
def Fresh (out : List Undone) (s : RwSt) : Prop := s.nsub = 0 ∧ s.got = false ∧ s.out = out

theorem range_map_of {subs : List Nat} {f : Nat → Nat}
    (h : ∀ k, k < subs.length → subs[k]? = some (f k)) : (List.range subs.length).map f = subs := by
  apply List.ext_getElem?
  intro i
  by_cases hi : i < subs.length
  · rw [h i hi]; simp [hi]
  · simp [List.getElem?_eq_none (Nat.le_of_not_lt hi), hi]

/-- Reading one transaction back. -/
theorem pack_read (stop stale) (t : Txn) (hok : t.Ok) (out) (s : RwSt) (hf : Fresh out s) :
    (stop t.oxid t.xid t.time = true →
      ∃ s', rwItems stop s (pack stale t).reverse = .stop s' ∧ s'.out = out) ∧
    (stop t.oxid t.xid t.time = false →
      ∃ s', rwItems stop s (pack stale t).reverse = .go s' ∧ Fresh (out ++ [undoneOf t]) s') := by
  obtain ⟨f1, f2, f3⟩ := hf
  by_cases hn : t.subs.length = 0
  · have hnil : t.subs = [] := List.eq_nil_of_length_eq_zero hn
    constructor
    · intro hs
      refine ⟨s, ?_, f3⟩
      simp [pack, hn, rwItems, rwItem, hs]
    · intro hs
      cases hx : t.xid with
      | none =>
        refine ⟨_, by simp [pack, hn, rwItems, rwItem, hs, hx] at hs ⊢; rw [if_neg (by simp [hs])], ?_⟩
        simp [Fresh, f1, f2, f3, undoneOf, hx]
      | some x =>
        rw [hx] at hs
        refine ⟨{ s with out := s.out ++ [⟨t.oxid.map (fun o => (o, t.undo)), some (x, [])⟩] }, ?_, ?_⟩
        · simp [pack, hn, rwItems, rwItem, hs, hx, f2]
        · simp [Fresh, f1, f2, f3, undoneOf, hx, hnil]
  · obtain ⟨s1, e1, g1, g2, g3, g4, g5⟩ := fillSubs_read stop t.oxid t.subs stale s f1 f2
      _ 0 (stale 0) rfl (by omega) (by intro k h1 h2; omega)
    have hz : 0 - 0 % perItem = 0 := by simp [perItem]
    rw [hz] at g2 g4 g5
    have hgot : s1.got = true := g4.2 rfl
    have hr : (List.range s1.nsub).map s1.subs = t.subs := by
      rw [g1]; exact range_map_of (fun k hk => g5 k (by omega) hk)
    have hne : t.subs ≠ [] := by intro h; simp [h] at hn
    obtain ⟨x, hx⟩ := Option.ne_none_iff_exists'.1 (hok hne)
    have hp : rwItems stop s (pack stale t).reverse =
        rwItems stop s1 [.rewind t.oxid t.xid t.subs.length t.time t.undo t.retain] := by
      rw [pack, List.reverse_cons, if_pos hn, rwItems_append, e1]
    rw [hp]
    constructor
    · intro hs
      refine ⟨s1, ?_, by rw [g3, f3]⟩
      simp [rwItems, rwItem, hs]
    · intro hs
      rw [hx] at hs
      refine ⟨{ s1 with out := s1.out ++ [⟨t.oxid.map (fun o => (o, t.undo)), some (x, t.subs)⟩]
                        got := false, nsub := 0 }, ?_, ?_⟩
      · simp [rwItems, rwItem, hs, hx, hgot, hr]
      · simp [Fresh, g3, f3, undoneOf, hx]

/-- Reading the items of a list of transactions back, newest first. -/
theorem packs_read (stop) (stales : Nat → Nat → Nat → Nat) (ts : List Txn)
    (hok : ∀ t ∈ ts, t.Ok) : ∀ (out) (s : RwSt) (n : Nat), Fresh out s →
    ∃ s', (rwItems stop s ((ts.zipIdx n).map (fun x => (pack (stales x.2) x.1).reverse)).flatten = .go s' ∨
      rwItems stop s ((ts.zipIdx n).map (fun x => (pack (stales x.2) x.1).reverse)).flatten = .stop s') ∧
      s'.out = out ++ (ts.takeWhile (fun t => !stop t.oxid t.xid t.time)).map undoneOf := by
  induction ts with
  | nil => intro out s n hf; exact ⟨s, Or.inl (by simp [rwItems]), by simp [hf.2.2]⟩
  | cons t ts ih =>
    intro out s n hf
    have hp := pack_read stop (stales n) t (hok t (by simp)) out s hf
    simp only [List.zipIdx_cons, List.map_cons, List.flatten_cons, rwItems_append]
    cases hs : stop t.oxid t.xid t.time with
    | true =>
      obtain ⟨s', e, ho⟩ := hp.1 hs
      refine ⟨s', Or.inr (by rw [e]), by simp [hs, ho]⟩
    | false =>
      obtain ⟨s', e, hf'⟩ := hp.2 hs
      obtain ⟨s'', e', ho⟩ := ih (fun u hu => hok u (by simp [hu])) (out ++ [undoneOf t]) s' (n + 1) hf'
      refine ⟨s'', ?_, by simp [hs, ho]⟩
      rw [e]; exact e'

end Verif.Rewind
