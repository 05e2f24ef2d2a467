import Verif.PageChunks.SplitRep

/-! # Bytes of B-tree pages: where a reorganization cuts -/

namespace Verif.PageChunks

variable {α : Type}

/-- The keys between chunks, each that of the first item of the next chunk. -/
def tailKeys (klen : α → Nat) (cs : List (List α)) : List Nat := cs.tail.map fun c => (c.head?.map klen).getD 0

/-- Facts about the boundaries set by the loop, src/btree/page_chunks.c:1309-1353. -/
structure CutFacts (klen size : α → Nat) (total hfree : Nat) (xs : List α) (nc hl dl ds : Nat) (cur : List α)
    (R : List (List α)) : Prop where
  flat : R.flatten = cur ++ xs
  len : 1 ≤ R.length
  full : ∀ c ∈ R.tail, c ≠ []
  head : cur ≠ [] → ∀ c ∈ R, c ≠ []
  keys : (tailKeys klen R).sum + hdrLen (nc + (R.length - 1)) ≤ hl + hdrLen nc
  data : (R.dropLast.map fun c => waste c.length).sum ≤ dl
  ratio : (cur.map size).sum = ds →
    1000 * (((tailKeys klen R).sum + 2 * (R.length - 1)) * total) ≤ 1001 * ((ds + (xs.map size).sum) * hfree)

theorem cutLoop_ne (klen size : α → Nat) (cut : Nat → Bool) (total hfree : Nat) (xs : List α) (i nc hl dl ds : Nat)
    (cur : List α) : ∃ c cs, cutLoop klen size cut total hfree xs i nc hl dl ds cur = c :: cs := by
  induction xs generalizing i nc hl dl ds cur with
  | nil => exact ⟨_, _, rfl⟩
  | cons x xs ih =>
    rw [cutLoop]
    split
    · exact ih ..
    · split
      · exact ⟨_, _, rfl⟩
      · exact ih ..

theorem cutLoop_head (klen size : α → Nat) (cut : Nat → Bool) (total hfree : Nat) (xs : List α) (i nc hl dl ds : Nat)
    (y : α) (cur : List α) :
    ∃ c cs, cutLoop klen size cut total hfree xs i nc hl dl ds (y :: cur) = (y :: c) :: cs := by
  induction xs generalizing i nc hl dl ds cur with
  | nil => exact ⟨_, _, rfl⟩
  | cons x xs ih =>
    rw [cutLoop]
    split
    · exact ih ..
    · split
      · exact ⟨_, _, rfl⟩
      · exact ih ..

theorem cutLoop_facts (klen size : α → Nat) (cut : Nat → Bool) (total hfree : Nat) (xs : List α)
    (i nc hl dl ds : Nat) (cur : List α) :
    CutFacts klen size total hfree xs nc hl dl ds cur
      (cutLoop klen size cut total hfree xs i nc hl dl ds cur) := by
  induction xs generalizing i nc hl dl ds cur with
  | nil =>
    rw [cutLoop]
    refine ⟨by simp, by simp, by simp, by simp, ?_, ?_, ?_⟩
    · simp [tailKeys]
    · simp
    · simp [tailKeys]
  | cons x xs ih =>
    have keep : CutFacts klen size total hfree (x :: xs) nc hl dl ds cur
        (cutLoop klen size cut total hfree xs (i + 1) nc hl dl (ds + size x) (cur ++ [x])) := by
      have h := ih (i + 1) nc hl dl (ds + size x) (cur ++ [x])
      refine ⟨by rw [h.flat]; simp, h.len, h.full, fun _ => h.head (by simp), h.keys, h.data, fun e => ?_⟩
      have := h.ratio (by simp [e])
      rw [List.map_cons, List.sum_cons, ← Nat.add_assoc]
      exact this
    rw [cutLoop]
    split
    · exact keep
    · rename_i h1
      split
      · rename_i h2
        have h := ih (i + 1) (nc + 1) (hl - (klen x + (hdrLen (nc + 1) - hdrLen nc))) (dl - waste cur.length) (size x) [x]
        obtain ⟨c, cs, hc⟩ := cutLoop_head klen size cut total hfree xs (i + 1) (nc + 1)
          (hl - (klen x + (hdrLen (nc + 1) - hdrLen nc))) (dl - waste cur.length) (size x) x []
        have hall := h.head (by simp)
        rw [hc] at h hall ⊢
        have hk : tailKeys klen (cur :: (x :: c) :: cs) = klen x :: tailKeys klen ((x :: c) :: cs) := by
          simp [tailKeys]
        have hst := hdrLen_step nc
        refine ⟨?_, by simp, fun c' hc' => hall c' hc', ?_, ?_, ?_, ?_⟩
        · rw [List.flatten_cons, h.flat]
          simp
        · intro hne c' hc'
          rcases List.mem_cons.mp hc' with rfl | hc'
          · exact hne
          · exact hall c' hc'
        · have := h.keys
          rw [hk, List.sum_cons]
          simp only [List.length_cons, Nat.add_sub_cancel] at this ⊢
          have e : nc + (cs.length + 1) = nc + 1 + cs.length := by omega
          rw [e]
          omega
        · have := h.data
          rw [List.dropLast_cons_of_ne_nil (by simp), List.map_cons, List.sum_cons]
          omega
        · intro e
          have := h.ratio (by simp)
          rw [hk, List.sum_cons]
          simp only [List.length_cons, Nat.add_sub_cancel, List.map_cons, List.sum_cons] at this ⊢
          have h2' := h2.2
          generalize (tailKeys klen ((x :: c) :: cs)).sum = K at *
          generalize cs.length = L at *
          generalize (xs.map size).sum = S at *
          have e1 : (klen x + K + 2 * (L + 1)) * total = (klen x + 2) * total + (K + 2 * L) * total := by
            rw [← Nat.add_mul]
            congr 1
            omega
          have e2 : (ds + (size x + S)) * hfree = ds * hfree + (size x + S) * hfree := by rw [Nat.add_mul]
          rw [e1, e2]
          omega
      · exact keep

theorem cutLoop_map {β : Type} (g : α → β) (klen size : β → Nat) (cut : Nat → Bool) (total hfree : Nat) (xs : List α)
    (i nc hl dl ds : Nat) (cur : List α) :
    cutLoop klen size cut total hfree (xs.map g) i nc hl dl ds (cur.map g) =
      (cutLoop (fun x => klen (g x)) (fun x => size (g x)) cut total hfree xs i nc hl dl ds cur).map (·.map g) := by
  induction xs generalizing i nc hl dl ds cur with
  | nil => simp [cutLoop]
  | cons x xs ih =>
    have e : cur.map g ++ [g x] = (cur ++ [x]).map g := by simp
    rw [List.map_cons, cutLoop, cutLoop]
    simp only [e, List.length_map]
    split
    · exact ih ..
    · split
      · rw [List.map_cons, ← ih]
        rfl
      · exact ih ..

theorem cutChunks_map {β : Type} (g : α → β) (klen size : β → Nat) (cut : Nat → Bool) (leaf right : Bool)
    (hk : List Nat) (its : List α) :
    cutChunks klen size cut leaf right hk (its.map g) =
      (cutChunks (fun x => klen (g x)) (fun x => size (g x)) cut leaf right hk its).map (·.map g) := by
  cases its with
  | nil => rfl
  | cons x xs =>
    have := cutLoop_map g klen size cut (((x :: xs).map fun x => size (g x)).sum)
      (if right && decide (dataStart leaf hk = 256) && decide (2 ≤ dataStart leaf hk - (hdrLen 1 + al hk.length)) then
        dataStart leaf hk - (hdrLen 1 + al hk.length) - 2 else dataStart leaf hk - (hdrLen 1 + al hk.length))
      xs 1 1 (dataStart leaf hk - (hdrLen 1 + al hk.length))
      (blck - dataStart leaf hk - ((x :: xs).map fun x => size (g x)).sum - al (x :: xs).length) (size (g x)) [x]
    unfold cutChunks
    simp only [List.map_cons, List.map_map, List.length_cons, List.length_map, List.map_nil] at this ⊢
    exact this

theorem waste_eq (n : Nat) : al n = n + waste n := by
  unfold al waste
  omega

theorem dataStart_facts (leaf : Bool) {hk : List Nat} (h4 : hk.length % 4 = 0) :
    hikeysLimit leaf ≤ dataStart leaf hk ∧ dataStart leaf hk % 4 = 0 ∧ hdrLen 1 + hk.length ≤ dataStart leaf hk ∧
      (dataStart leaf hk = hikeysLimit leaf ∨ dataStart leaf hk = hdrLen 1 + hk.length) := by
  have h1 := limit_ge leaf
  have h2 := hdrLen_mod 1
  unfold dataStart
  rw [al_of_mod h4]
  rcases Nat.le_total (hikeysLimit leaf) (hdrLen 1 + hk.length) with h | h
  · rw [Nat.max_eq_right h]
    omega
  · rw [Nat.max_eq_left h]
    omega

/-- What the chunks of a reorganization satisfy. -/
structure ReorgFacts (klen : Item → Nat) (leaf : Bool) (hk : List Nat) (its : List Item) (R : List (List Item)) :
    Prop where
  flat : R.flatten = its
  len : 1 ≤ R.length
  full : ∀ c ∈ R.tail, c ≠ []
  kfit : hdrLen R.length + (tailKeys klen R).sum + hk.length ≤ dataStart leaf hk
  klast : hdrLen R.length + (tailKeys klen R).sum < 256
  count : R.length ≤ 38
  data : dataStart leaf hk + (R.map fun c => al c.length + ilen c).sum ≤ 4096

theorem sum_al_waste (R : List (List Item)) :
    (R.map fun c => al c.length + ilen c).sum =
      R.flatten.length + ilen R.flatten + (R.map fun c => waste c.length).sum := by
  induction R with
  | nil => rfl
  | cons c R ih =>
    rw [List.map_cons, List.sum_cons, ih, List.flatten_cons, List.length_append, ilen_append, List.map_cons,
      List.sum_cons, waste_eq]
    omega

theorem sum_al_mod {R : List (List Item)} (h : ∀ it ∈ R.flatten, it.ok) :
    (R.map fun c => al c.length + ilen c).sum % 4 = 0 := by
  induction R with
  | nil => rfl
  | cons c R ih =>
    have h1 := ilen_mod (l := c) fun it hi => h it (by simp [hi])
    have h2 := ih fun it hi => h it (by rw [List.flatten_cons]; simp only [List.mem_append]; exact Or.inr hi)
    have h3 := al_mod c.length
    rw [List.map_cons, List.sum_cons]
    omega

theorem tailKeys_ge {klen : Item → Nat} {R : List (List Item)} {its : List Item} (flat : R.flatten = its)
    (full : ∀ c ∈ R.tail, c ≠ []) (hne : R.head? ≠ some [] ∨ R.length = 1)
    (h4 : ∀ it ∈ its.drop 1, 4 ≤ klen it) : 4 * (R.length - 1) ≤ (tailKeys klen R).sum := by
  subst flat
  match R with
  | [] => simp
  | [c] => simp
  | [] :: d :: cs => simp at hne
  | (x :: c) :: cs =>
    simp only [List.tail_cons] at full
    have h5 : ∀ it ∈ cs.flatten, 4 ≤ klen it := fun it hi => h4 it (by simp at hi ⊢; exact Or.inr hi)
    clear h4 hne
    simp only [tailKeys, List.tail_cons, List.length_cons, Nat.add_sub_cancel]
    induction cs with
    | nil => simp
    | cons d cs ih =>
      have h6 := ih (fun c hc => full c (by simp [hc])) fun it hi => h5 it (by
        rw [List.flatten_cons]; simp only [List.mem_append]; exact Or.inr hi)
      obtain ⟨y, d', hd⟩ : ∃ y d', d = y :: d' := by
        have := full d (by simp)
        cases d with
        | nil => exact absurd rfl this
        | cons y d' => exact ⟨y, d', rfl⟩
      have h7 := h5 y (by rw [List.flatten_cons, hd]; simp)
      rw [List.map_cons, List.sum_cons, hd, List.length_cons]
      simp only [List.head?_cons, Option.map_some, Option.getD_some]
      omega

theorem sum_size_ge {its : List Item} (h : ∀ it ∈ its, it.ok) : its ≠ [] → 4 ≤ ilen its := by
  intro hne
  cases its with
  | nil => exact absurd rfl hne
  | cons x l =>
    have := (h x (by simp)).2
    rw [ilen_cons]
    omega

theorem cutChunks_facts (klen : Item → Nat) (cut : Nat → Bool) (leaf right : Bool) {hk : List Nat} {its : List Item}
    (ok : ∀ it ∈ its, it.ok) (h4 : hk.length % 4 = 0) (k4 : ∀ it ∈ its.drop 1, 4 ≤ klen it)
    (hr : right = true → hk = []) (hnr : right = false → 4 ≤ hk.length)
    (fit : dataStart leaf hk + ilen its + al its.length ≤ 4096) :
    ReorgFacts klen leaf hk its (cutChunks klen (fun it => it.words.length) cut leaf right hk its) := by
  obtain ⟨d1, d2, d3, d4⟩ := dataStart_facts leaf h4
  have hl := limit_ge leaf
  have hd1 : hdrLen 1 = 32 := rfl
  cases its with
  | nil =>
    refine ⟨rfl, by simp [cutChunks], by simp [cutChunks], ?_, ?_, ?_, ?_⟩
    · simp only [cutChunks, tailKeys]
      simpa using d3
    · simp [cutChunks, tailKeys, hd1]
    · simp [cutChunks]
    · simp only [cutChunks]
      simpa [ilen, al] using fit
  | cons x xs =>
    have htot : (((x :: xs).map fun it => it.words.length).sum) = ilen (x :: xs) := rfl
    unfold cutChunks
    simp only
    rw [htot]
    obtain ⟨e, he⟩ : ∃ e, e = dataStart leaf hk := ⟨_, rfl⟩
    rw [← he] at d1 d2 d3 d4 fit ⊢
    rw [al_of_mod h4]
    obtain ⟨hf, hhf⟩ : ∃ f, f = if (right && decide (e = 256) && decide (2 ≤ e - (hdrLen 1 + hk.length))) = true then
      e - (hdrLen 1 + hk.length) - 2 else e - (hdrLen 1 + hk.length) := ⟨_, rfl⟩
    rw [← hhf]
    have F := cutLoop_facts klen (fun it : Item => it.words.length) cut (ilen (x :: xs)) hf xs 1 1
      (e - (hdrLen 1 + hk.length)) (blck - e - ilen (x :: xs) - al (x :: xs).length) x.words.length [x]
    obtain ⟨R, hR⟩ : ∃ R, R = cutLoop klen (fun it : Item => it.words.length) cut (ilen (x :: xs)) hf xs 1 1
      (e - (hdrLen 1 + hk.length)) (blck - e - ilen (x :: xs) - al (x :: xs).length) x.words.length [x] := ⟨_, rfl⟩
    rw [← hR] at F ⊢
    have hflat : R.flatten = x :: xs := F.flat
    have hlen := F.len
    have hkeys := F.keys
    have hn : 1 + (R.length - 1) = R.length := by omega
    rw [hn, hd1] at hkeys
    have hge := tailKeys_ge hflat F.full (by
      left
      intro h0
      have := F.head (by simp) [] (List.mem_of_mem_head? h0)
      exact this rfl) k4
    have hratio := F.ratio (by simp)
    have hT := sum_size_ge ok (by simp)
    have hsum : x.words.length + (xs.map fun it => it.words.length).sum = ilen (x :: xs) := rfl
    rw [hsum] at hratio
    have hdl := F.data
    have hsw := sum_al_waste R
    have hsm := sum_al_mod (R := R) (by rw [hflat]; exact ok)
    have him := ilen_mod ok
    have ham := al_mod (x :: xs).length
    have hlast : (R.map fun c => waste c.length).sum ≤ (R.dropLast.map fun c => waste c.length).sum + 3 := by
      have hne : R ≠ [] := by intro h0; rw [h0] at hlen; simp at hlen
      conv => lhs; rw [← List.dropLast_concat_getLast hne]
      rw [List.map_append, List.sum_append]
      simp only [List.map_cons, List.map_nil, List.sum_cons, List.sum_nil, Nat.add_zero]
      have : waste (R.getLast hne).length ≤ 3 := by unfold waste; omega
      omega
    rw [hflat] at hsw
    have hbl : blck = 4096 := rfl
    rw [hbl] at hdl
    have hx := al_le (x :: xs).length
    have hhd := hdrLen_le R.length
    have hhu : hdrLen R.length < descOff + 2 * R.length + 4 := al_lt _
    have hdo : descOff = 28 := rfl
    rw [hd1] at d3 d4 hhf
    obtain ⟨K, hK⟩ : ∃ K, K = (tailKeys klen R).sum := ⟨_, rfl⟩
    rw [← hK] at hkeys hge hratio
    refine ⟨hflat, hlen, F.full, ?_, ?_, ?_, ?_⟩
    · rw [← he, ← hK]
      omega
    · rw [← hK]
      cases right with
      | false =>
        have := hnr rfl
        rcases d4 with d4 | d4
        · omega
        · omega
      | true =>
        rw [hr rfl] at hhf d3 d4 hkeys
        simp only [List.length_nil] at hhf d3 d4 hkeys
        cases leaf with
        | true =>
          have hlim : hikeysLimit true = 128 := rfl
          omega
        | false =>
          have hlim : hikeysLimit false = 256 := rfl
          have he2 : e = 256 := by omega
          rw [he2] at hhf
          simp at hhf
          rw [hhf] at hratio
          have h6 : 1000 * (K + 2 * (R.length - 1)) ≤ 1001 * 222 := by
            have h7 : ilen (x :: xs) * (1000 * (K + 2 * (R.length - 1))) ≤ ilen (x :: xs) * (1001 * 222) := by
              calc ilen (x :: xs) * (1000 * (K + 2 * (R.length - 1)))
                  = 1000 * ((K + 2 * (R.length - 1)) * ilen (x :: xs)) := by
                    rw [Nat.mul_left_comm, Nat.mul_comm (ilen (x :: xs)) (K + 2 * (R.length - 1))]
                _ ≤ 1001 * (ilen (x :: xs) * 222) := hratio
                _ = ilen (x :: xs) * (1001 * 222) := by rw [Nat.mul_left_comm]
            exact Nat.le_of_mul_le_mul_left h7 (by omega)
          omega
    · omega
    · rw [← he, hsw]
      rw [hsw] at hsm
      have hal := al_lt (x :: xs).length
      have : al (x :: xs).length = ((x :: xs).length + 3) / 4 * 4 := rfl
      omega

end Verif.PageChunks
