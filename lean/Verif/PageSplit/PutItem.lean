import Verif.PageSplit.Put

/-! # Putting an item on a page never fails -/

namespace Verif.PageSplit

/-- The pages in place of `p` after the item was put. -/
structure PutOut (p : Page) (e2 : Env) (csn : Option Nat) (off : Nat) (new : Item)
    (replace : Bool) (qs : List Page) : Prop where
  ok : ∀ q ∈ qs, q.Ok ∧ q.leaf = p.leaf
  div : Divided p.hi qs
  leaf : p.leaf = true → ∃ A B n', Kept e2 csn (p.items.take off) A ∧
    Kept e2 csn (after p.items off replace) B ∧ n'.row = new.row ∧ new.size ≤ n'.size ∧
    (∀ old, replace = true → p.items[off]? = some old → old.size ≤ n'.size) ∧
    (qs.map Page.items).flatten = A ++ n' :: B
  inner : p.leaf = false → ((qs.map Page.items).flatten).map (·.row) =
    (p.items.take off ++ new :: after p.items off replace).map (·.row)

theorem keep_le (leaf : Bool) (e : Env) (csn : Option Nat) (l : List Item)
    (hl : ∀ x ∈ l, ItemOk leaf x) : (∀ x ∈ keep leaf e csn l, ItemOk leaf x) ∧
      sizes (keep leaf e csn l) ≤ sizes l ∧ (keep leaf e csn l).length ≤ l.length := by
  cases leaf with
  | false => exact ⟨hl, Nat.le_refl _, Nat.le_refl _⟩
  | true =>
    have h := keep_kept e csn l
    refine ⟨?_, (h.le hl).1, (h.le hl).2⟩
    intro y hy
    obtain ⟨x, hx, hc⟩ := h.mem y hy
    exact hc.ok (hl x hx)

theorem keep_mem_klen (leaf : Bool) (e : Env) (csn : Option Nat) (l : List Item) :
    ∀ y ∈ keep leaf e csn l, ∃ x ∈ l, x.row = y.row := by
  cases leaf with
  | false => exact fun y hy => ⟨y, hy, rfl⟩
  | true =>
    intro y hy
    obtain ⟨x, hx, hc⟩ := (keep_kept e csn l).mem y hy
    exact ⟨x, hx, hc.row.symm⟩

theorem sizes_after (l : List Item) (off : Nat) (replace : Bool) :
    sizes (l.take off) + sizes (after l off replace) ≤ sizes l := by
  have h1 := sizes_take_drop l off
  unfold after
  cases replace with
  | false => exact Nat.le_of_eq h1
  | true =>
    have h2 := sizes_take_drop (l.drop off) 1
    rw [List.drop_drop] at h2
    simp only [if_true]
    omega

theorem length_after (l : List Item) (off : Nat) (replace : Bool) (h : off ≤ l.length)
    (hr : replace = true → off < l.length) :
    (l.take off).length + (after l off replace).length + (if replace then 1 else 0) = l.length := by
  unfold after
  rw [List.length_take, List.length_drop, Nat.min_eq_left h]
  cases replace with
  | false => simp; omega
  | true => have := hr rfl; simp; omega

/-- Putting an item on a page always succeeds: an error in the critical section, a split place
that was not set and an overfull page do not occur. -/
theorem putItem_ok (bridge : Bool) (o : Orc) {p : Page} {e e2 : Env} {next : Nat}
    {csn : Option Nat} {off : Nat} {new : Item} {replace : Bool} (hp : p.Ok)
    (hn : PutPre p off new replace) (he : e.le e2) (hc : csnLe next csn)
    (hk : replace = true → ma new.row.tup.klen ≤ ma p.maxKey) :
    ∃ qs, putItem bridge o p e e2 next csn off new replace = .ok qs ∧
      PutOut p e2 csn off new replace qs := by
  have hnew := hn.itemOk
  obtain ⟨A, l, B, ha, hlt⟩ := chunkOf_at p.chunks off o.chunk replace hp.chunks hn.le
  have hlt' : replace = true → (chunkOf p.chunks off o.chunk replace).2 < l.length :=
    fun h => hlt h (hn.rep h).1
  have hspec := fitsItem_spec bridge o p e next l.length off new.size replace
  have hasis := fitsItem_asIs bridge o p e next l.length off new.size replace
  unfold putItem
  generalize chunkOf p.chunks off o.chunk replace = ck at ha hlt'
  obtain ⟨c, k⟩ := ck
  dsimp only at ha hlt' ⊢
  rw [ha.getD]
  cases hf : fitsItem bridge o p e next l.length off new.size replace with
  | asIs =>
    obtain ⟨h1, h2, h3, n', h4, h5, h6, h7⟩ := putAsIs_ok bridge o hp hn hk ha hlt' hf
    refine ⟨_, rfl, ?_, h2, ?_, ?_⟩
    · intro q hq; rw [List.mem_singleton.1 hq]; exact ⟨h1, h3⟩
    · intro _
      refine ⟨_, _, n', Kept.refl _ _ _, Kept.refl _ _ _, h4, h5, h6, ?_⟩
      simpa using h7
    · intro _
      simp only [List.map_cons, List.map_nil, List.flatten_cons, List.flatten_nil, List.append_nil]
      rw [h7]
      simp [h4]
  | compact | split =>
    all_goals
      dsimp only
      -- the items
      have hitems : (makeSplitItems p replace e2 csn new off).items =
          keep p.leaf e2 csn (p.items.take off) ++ new ::
            keep p.leaf e2 csn (after p.items off replace) := by
        have := makeLoop_eq p.leaf replace e2 csn new p.items 0 off hn.le
          (fun h => (hn.rep h).1)
        rw [Nat.zero_add] at this
        exact this
      have hta := keep_le p.leaf e2 csn (p.items.take off)
        (fun x hx => hp.items x (List.mem_of_mem_take hx))
      have htb := keep_le p.leaf e2 csn (after p.items off replace)
        (fun x hx => hp.items x (List.mem_of_mem_drop hx))
      have hlen := length_after p.items off replace hn.le (fun h => (hn.rep h).1)
      have hsz := sizes_after p.items off replace
      have hsingle := p.single_le
      have hroom := hp.room
      have hok : ∀ x ∈ (makeSplitItems p replace e2 csn new off).items, ItemOk p.leaf x := by
        rw [hitems]
        intro x hx
        simp only [List.mem_append, List.mem_cons] at hx
        rcases hx with hx | rfl | hx
        · exact hta.1 x hx
        · exact hnew
        · exact htb.1 x hx
      have hin : InnerOk p.leaf (makeSplitItems p replace e2 csn new off).items := by
        intro hlf x hx
        rw [hitems, hlf, keep_int, keep_int, keyed_append _ _ _ _ (by
          intro _ h3
          have h1 := hn.pos hlf
          have h2 := hn.le
          rcases List.take_eq_nil_iff.1 h3 with h3 | h3
          · omega
          · rw [h3, List.length_nil] at h2; omega)] at hx
        have hinner := hp.inner hlf
        rw [hlf] at hinner
        simp only [List.mem_append, List.mem_cons] at hx
        rcases hx with hx | rfl | hx
        · exact hinner x (keyed_take _ _ _ x hx)
        · have h1 := hn.size
          have h2 := hn.same hlf
          rw [hlf] at h1
          unfold need at h1
          rw [h2] at h1
          exact Nat.le_of_eq h1.symm
        · refine hinner x (keyed_drop _ _ _ ?_ x hx)
          intro _
          have := hn.pos hlf
          split <;> omega
      have hold : ∀ old, replace = true → p.items[off]? = some old → old.size ≤ new.size := by
        intro old hr hget
        by_cases hle : old.size ≤ new.size
        · exact hle
        · exfalso
          have : want p l.length off new.size replace ≤ (blck : Int) - p.dataSize := by
            unfold want
            rw [hr, if_pos rfl, hget, Option.map_some, Option.getD_some]
            omega
          have := hasis this
          rw [hf] at this
          cases this
      have hcomp : p.start + sizes (makeSplitItems p replace e2 csn new off).items +
            arr (makeSplitItems p replace e2 csn new off).items.length ≤ blck →
          ∃ qs, compact o p (makeSplitItems p replace e2 csn new off).items = .ok qs ∧
            PutOut p e2 csn off new replace qs := by
        intro hfit
        obtain ⟨q, h1, h2, h3, h4, h5⟩ := compact_ok o hp hok hin hfit
        refine ⟨_, h1, ?_, h4, ?_, ?_⟩
        · intro q' hq; rw [List.mem_singleton.1 hq]; exact ⟨h2, h5⟩
        · intro hl
          rw [hl] at hitems
          refine ⟨_, _, new, keep_kept _ _ _, keep_kept _ _ _, rfl, Nat.le_refl _, hold, ?_⟩
          rw [← hitems, ← h3]
          simp
        · intro hl
          rw [hl, keep_int, keep_int] at hitems
          rw [← hitems, ← h3]
          simp
      have hmk : p.hikeySize ≤ (makeSplitItems p replace e2 csn new off).maxKeyLen :=
        Nat.le_trans hp.hikey_le (Nat.le_max_left _ _)
      have hstart := hp.start
      -- the compaction promised by the estimate
      have hcompact : fitsItem bridge o p e next l.length off new.size replace = .compact →
          p.start + sizes (makeSplitItems p replace e2 csn new off).items +
            arr (makeSplitItems p replace e2 csn new off).items.length ≤ blck := by
        intro hf'
        obtain ⟨hl, _, hv⟩ := hspec.2 hf'
        have hitems' := hitems
        rw [hl] at hitems'
        have hds : p.dataSize = p.start + ((p.chunks.map (fun c => arr c.length)).sum +
            sizes p.items) := by
          unfold Page.dataSize; rw [chunkSizes_eq]; rfl
        have hio : ∀ x ∈ p.items, ItemOk true x := by rw [← hl]; exact hp.items
        have harr := ha.arr_le
        have hdm : ∀ r : Row, r.droppable e (some next) = true → r.droppable e2 csn = true :=
          fun r hr => droppable_mono he hc hr
        rw [hl] at hta htb
        rw [hitems', sizes_append, sizes_cons, List.length_append, List.length_cons]
        have hpl : p.items = p.chunks.flatten := rfl
        cases hr : replace with
        | false =>
          rw [hr] at hv hlen htb
          have hvv := vacated_none he hdm none p.items hio 0 (fun j h => by cases h)
          have hkk : sizes (keep true e2 csn (p.items.take off)) +
              sizes (keep true e2 csn (after p.items off false)) =
              sizes (keep true e2 csn p.items) := by
            rw [← sizes_append, ← keep_append]
            congr 2
            exact List.take_append_drop _ _
          unfold want at hv
          simp only [Bool.false_eq_true, if_false, Nat.add_zero] at hv hlen
          have hmono := arr_mono (a := (keep true e2 csn (p.items.take off)).length +
            ((keep true e2 csn (after p.items off false)).length + 1))
            (b := p.chunks.flatten.length + 1) (by rw [← hpl]; omega)
          omega
        | true =>
          rw [hr] at hv hlen htb
          have hoff := (hn.rep hr).1
          have hvv := vacated_skip he hdm p.items hio 0 off hoff
          rw [Nat.zero_add] at hvv
          have hch := arr_chunks p.chunks
          unfold want at hv
          simp only [if_true] at hv hlen
          rw [List.getElem?_eq_getElem hoff, Option.map_some, Option.getD_some] at hv
          have hmono := arr_mono (a := (keep true e2 csn (p.items.take off)).length +
            ((keep true e2 csn (after p.items off true)).length + 1))
            (b := p.chunks.flatten.length) (by rw [← hpl]; omega)
          have haft : after p.items off true = p.items.drop (off + 1) := rfl
          rw [haft] at hmono ⊢
          omega
      -- the split
      have hsplit : ¬ (p.leaf = true ∧
            fitSingle (makeSplitItems p replace e2 csn new off) = true) →
          ∃ qs, doSplit o p (makeSplitItems p replace e2 csn new off) = .ok qs ∧
            PutOut p e2 csn off new replace qs := by
        intro hnf
        have hklen := le_of_ma hn.klen (by decide)
        have hmaxk : (makeSplitItems p replace e2 csn new off).maxKeyLen ≤ maxTup := by
          have := le_of_ma hp.maxKey (by decide)
          show max (ma p.maxKey) new.row.tup.klen ≤ maxTup
          have := hn.klen
          omega
        have hhk : p.hikeySize ≤ maxTup := hiSize_le hp.hikey
        have hlen2 : 2 ≤ (makeSplitItems p replace e2 csn new off).items.length := by
          cases hpl : p.leaf with
          | false =>
            have h1 := hn.pos hpl
            have h2 := hn.le
            rw [hitems, hpl, keep_int, keep_int, List.length_append, List.length_cons,
              List.length_take, Nat.min_eq_left h2]
            omega
          | true =>
            by_cases h2 : 2 ≤ (makeSplitItems p replace e2 csn new off).items.length
            · exact h2
            · exfalso
              apply hnf
              refine ⟨hpl, ?_⟩
              unfold fitSingle
              rw [decide_eq_true_eq]
              have h3 : (makeSplitItems p replace e2 csn new off).items = [new] := by
                rw [hitems] at h2 ⊢
                rw [List.length_append, List.length_cons] at h2
                rw [List.eq_nil_of_length_eq_zero (l := keep p.leaf e2 csn (p.items.take off))
                  (by omega), List.eq_nil_of_length_eq_zero
                  (l := keep p.leaf e2 csn (after p.items off replace)) (by omega)]
                rfl
              rw [h3]
              have h4 := hnew.le
              have h5 := hikeysEnd_le (makeSplitItems p replace e2 csn new off).leaf
              have h6 : sizes [new] = new.size := Nat.add_zero _
              have h7 : arr [new].length = 8 := arr_one
              unfold hdrSize blck maxTup at *
              omega
        have hex := split_exists (makeSplitItems p replace e2 csn new off)
          (fun x hx => (hok x hx).le) hmaxk hhk hlen2 (by
            show max (hikeysEnd p.leaf) (hdrSize + p.hikeySize) + _ + _ ≤ _
            rw [← hstart]
            have h4 := hnew.le
            have h5 : sizes (makeSplitItems p replace e2 csn new off).items ≤
                sizes p.items + new.size := by
              rw [hitems, sizes_append, sizes_cons]; omega
            have h6 : (makeSplitItems p replace e2 csn new off).items.length - 1 ≤
                p.items.length := by
              rw [hitems, List.length_append, List.length_cons]; omega
            have h7 := arr_mono h6
            omega)
        have hkl : ∀ x ∈ (makeSplitItems p replace e2 csn new off).items.tail,
            x.row.tup.klen ≤ (makeSplitItems p replace e2 csn new off).maxKeyLen := by
          have hkeyed : ∀ x ∈ keyed p.leaf (makeSplitItems p replace e2 csn new off).items,
              x.row.tup.klen ≤ (makeSplitItems p replace e2 csn new off).maxKeyLen := by
            intro x hx
            have hold' : (∃ y ∈ keyed p.leaf p.items, y.row = x.row) →
                x.row.tup.klen ≤ (makeSplitItems p replace e2 csn new off).maxKeyLen := by
              rintro ⟨y, hy, hyx⟩
              have h1 := hp.keys y hy
              rw [hyx] at h1
              have h2 := ma_le x.row.tup.klen
              exact Nat.le_trans (Nat.le_trans h2 h1) (Nat.le_max_left _ _)
            cases hpl : p.leaf with
            | true =>
              rw [hpl] at hx hold'
              rw [hitems, hpl] at hx
              have hx' : x ∈ keep true e2 csn (p.items.take off) ++ new ::
                keep true e2 csn (after p.items off replace) := hx
              simp only [List.mem_append, List.mem_cons] at hx'
              rcases hx' with hx | rfl | hx
              · obtain ⟨y, hy, h⟩ := keep_mem_klen _ _ _ _ x hx
                exact hold' ⟨y, List.mem_of_mem_take hy, h⟩
              · exact Nat.le_max_right _ _
              · obtain ⟨y, hy, h⟩ := keep_mem_klen _ _ _ _ x hx
                exact hold' ⟨y, List.mem_of_mem_drop hy, h⟩
            | false =>
              rw [hpl] at hx hold'
              rw [hitems, hpl, keep_int, keep_int, keyed_append _ _ _ _ (by
                intro _ h3
                have h1 := hn.pos hpl
                have h2 := hn.le
                rcases List.take_eq_nil_iff.1 h3 with h3 | h3
                · omega
                · rw [h3, List.length_nil] at h2; omega)] at hx
              simp only [List.mem_append, List.mem_cons] at hx
              rcases hx with hx | rfl | hx
              · exact hold' ⟨x, keyed_take _ _ _ x hx, rfl⟩
              · exact Nat.le_max_right _ _
              · refine hold' ⟨x, keyed_drop _ _ _ ?_ x hx, rfl⟩
                intro _
                have := hn.pos hpl
                split <;> omega
          intro x hx
          apply hkeyed
          unfold keyed
          split
          · exact List.mem_of_mem_tail hx
          · exact hx
        obtain ⟨lp, rp, h1, h2, h3, h4, h5, h6, h7, h8⟩ := doSplit_ok o hp hok hin rfl rfl hkl hex
        refine ⟨_, h1, ?_, h6, ?_, ?_⟩
        · intro q hq
          simp only [List.mem_cons, List.not_mem_nil, or_false] at hq
          rcases hq with rfl | rfl
          · exact ⟨h2, h4⟩
          · exact ⟨h3, h5⟩
        · intro hl
          have h9 := h7 hl
          rw [hitems, hl] at h9
          refine ⟨_, _, new, keep_kept _ _ _, keep_kept _ _ _, rfl, Nat.le_refl _, hold, ?_⟩
          rw [← h9]
          simp
        · intro hl
          rw [hitems, hl, keep_int, keep_int] at h8
          rw [← h8]
          simp
      first
        | (rw [if_pos (Or.inl rfl)]; exact hcomp (hcompact hf))
        | (by_cases hfs : p.leaf = true ∧
              fitSingle (makeSplitItems p replace e2 csn new off) = true
           · rw [if_pos (Or.inr hfs)]
             apply hcomp
             have h1 := hfs.2
             unfold fitSingle at h1
             rw [decide_eq_true_eq] at h1
             have h2 : (makeSplitItems p replace e2 csn new off).leaf = p.leaf := rfl
             rw [h2] at h1
             omega
           · rw [if_neg (fun h => h.elim (fun h => (by cases h)) hfs)]
             exact hsplit hfs)

end Verif.PageSplit
