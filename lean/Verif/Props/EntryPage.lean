import Verif.EntryPageLemmas
/-
Property theorems C16 (entry page split) and C17 (binary searches).
-/
namespace Rum.Props
open Rum Rum.Entry Std

variable {K T : Type}

/-! ### C17 -/

/-- A comparison of a searched key with tuples that is consistent with an order of the tuples: if the key is at or after
a tuple, it is strictly after the preceding ones. -/
def KeyOrder (cmp : K → T → Ordering) (page : List T) : Prop :=
  ∀ k, page.Pairwise (fun a b => cmp k b ≠ .lt → cmp k a = .gt)

/-- Comparing keys under a total order gives such a comparison on every page with strictly increasing keys. -/
theorem KeyOrder.of_sorted (cmpK : K → K → Ordering) [TransCmp cmpK] (key : T → K) (page : List T)
    (h : SSorted cmpK (page.map key)) : KeyOrder (fun k t => cmpK k (key t)) page := by
  intro k
  rw [SSorted, List.pairwise_map] at h
  refine h.imp ?_
  intro a b hab hk
  cases hc : cmpK k (key b) with
  | lt => exact absurd hc hk
  | eq => exact TransCmp.gt_of_eq_of_gt hc (OrientedCmp.gt_of_lt hab)
  | gt => exact TransCmp.gt_trans hc (OrientedCmp.gt_of_lt hab)

/-- **C17, leaf pages.** On every page of any size with its tuples in key order, for every key: the search reports the key
as found exactly if the page has it, at its position; otherwise the position where it belongs, all tuples before it
being smaller and all from it on greater. -/
theorem C17_leaf (cmp : K → T → Ordering) (page : List T) (hp : KeyOrder cmp page) (k : K) :
    (∃ off t, locateLeaf cmp page k = (true, off) ∧ page[off - 1]? = some t ∧ 1 ≤ off ∧ cmp k t = .eq) ∨
    (∃ off, locateLeaf cmp page k = (false, off) ∧ 1 ≤ off ∧ off ≤ page.length + 1 ∧ (∀ t ∈ page, cmp k t ≠ .eq) ∧
      (∀ t ∈ page.take (off - 1), cmp k t = .gt) ∧ ∀ t ∈ page.drop (off - 1), cmp k t = .lt) := by
  unfold locateLeaf
  by_cases h0 : page.length < 1
  · rw [if_pos h0]
    have : page = [] := List.length_eq_zero_iff.1 (by omega)
    subst this
    right
    exact ⟨1, rfl, by simp, by simp, by simp, by simp, by simp⟩
  · rw [if_neg h0]
    have hpw := List.pairwise_iff_getElem.1 (hp k)
    have hat : ∀ i, 1 ≤ i → (h : i < page.length + 1) →
        cmpTuple cmp page k i = cmp k (page[i - 1]'(by omega)) := by
      intro i h1 h2
      simp only [cmpTuple]; rw [List.getElem?_eq_getElem (by omega)]
    rcases searchLoop_ok (fun mid => cmpTuple cmp page k mid) 1 (page.length + 1)
      (fun i j h1 h2 h3 h4 => by
        rw [hat i h1 (by omega)]
        rw [hat j (by omega) h3] at h4
        exact hpw (i - 1) (j - 1) (by omega) (by omega) (by omega) h4)
      (page.length + 1) 1 (page.length + 1) (by omega) (by omega) (by omega) (by omega) (fun i a b => by omega) (fun i a b => by omega) with
      ⟨m, e, h1, h2, h3⟩ | ⟨h, e, h1, h2, h3, h4⟩
    · left
      rw [hat m h1 h2] at h3
      exact ⟨m, page[m - 1], e, List.getElem?_eq_getElem (by omega), h1, h3⟩
    · right
      have hlo : ∀ t ∈ page.take (h - 1), cmp k t = .gt := by
        intro t ht
        obtain ⟨i, hi, rfl⟩ := List.getElem_of_mem ht
        simp only [List.length_take] at hi
        rw [List.getElem_take]
        have := h3 (i + 1) (by omega) (by omega)
        rw [hat (i + 1) (by omega) (by omega)] at this
        exact this
      have hhi : ∀ t ∈ page.drop (h - 1), cmp k t = .lt := by
        intro t ht
        obtain ⟨i, hi, rfl⟩ := List.getElem_of_mem ht
        simp only [List.length_drop] at hi
        rw [List.getElem_drop]
        have := h4 (h - 1 + i + 1) (by omega) (by omega)
        rw [hat (h - 1 + i + 1) (by omega) (by omega)] at this
        exact this
      refine ⟨h, e, h1, h2, fun t ht => ?_, hlo, hhi⟩
      rw [← List.take_append_drop (h - 1) page] at ht
      rcases List.mem_append.1 ht with h' | h'
      · rw [hlo t h']; decide
      · rw [hhi t h']; decide

/-- The downlink at position `off` of an interior page is the one whose key range contains `k`: every earlier separator is
smaller, and its own is not (or is unbounded). -/
def Covers (cmp : K → T → Ordering) (page : List T) (unbounded : Bool) (k : K) (off : Nat) : Prop :=
  1 ≤ off ∧ off ≤ page.length ∧ (∀ t ∈ page.take (off - 1), cmp k t = .gt) ∧
    ((off = page.length ∧ unbounded = true) ∨ ∃ t, page[off - 1]? = some t ∧ cmp k t ≠ .gt)

/-- Interior search, in general: the last position counts as +infinity if `inf`. -/
theorem interior_search (cmp : K → T → Ordering) (page : List T) (inf : Bool) (hne : page ≠ [])
    (hp : KeyOrder cmp (if inf then page.dropLast else page)) (k : K)
    (hk : inf = true ∨ ∃ t, page.getLast? = some t ∧ cmp k t ≠ .gt) :
    Covers cmp page inf k (searchLoop (fun mid =>
      if mid = page.length ∧ inf then .lt
      else cmpTuple cmp page k mid) (page.length + 1) 1 (page.length + 1)).2 := by
  have hlen := List.length_pos_iff.2 hne
  have hat : ∀ i, 1 ≤ i → (h : i < page.length + 1) → ¬ (i = page.length ∧ inf = true) →
      (if i = page.length ∧ inf = true then Ordering.lt
      else cmpTuple cmp page k i) = cmp k (page[i - 1]'(by omega)) := by
    intro i h1 h2 h3
    rw [if_neg h3, cmpTuple, List.getElem?_eq_getElem (by omega)]
  have hpw : ∀ i j (hi : i < page.length) (hj : j < page.length), i < j → ¬ (j + 1 = page.length ∧ inf = true) →
      cmp k page[j] ≠ .lt → cmp k page[i] = .gt := by
    intro i j hi hj hij hl
    have := List.pairwise_iff_getElem.1 (hp k)
    cases inf with
    | false => simp only [Bool.false_eq_true, if_false] at this; exact this i j hi hj hij
    | true =>
      simp only [if_true] at this
      simp only [and_true] at hl
      have := this i j (by simp; omega) (by simp; omega) hij
      simpa [List.getElem_dropLast] using this
  rcases searchLoop_ok (fun mid => if mid = page.length ∧ inf then .lt
      else cmpTuple cmp page k mid) 1 (page.length + 1)
    (fun i j h1 h2 h3 h4 => by
      by_cases hl : j = page.length ∧ inf = true
      · rw [if_pos hl] at h4; exact absurd rfl h4
      · rw [hat i h1 (by omega) (by omega)]
        rw [hat j (by omega) h3 hl] at h4
        exact hpw (i - 1) (j - 1) (by omega) (by omega) (by omega) (by rw [Nat.sub_add_cancel (by omega)]; exact hl) h4)
    (page.length + 1) 1 (page.length + 1) (by omega) (by omega) (by omega) (by omega) (fun i a b => by omega) (fun i a b => by omega) with
    ⟨m, e, h1, h2, h3⟩ | ⟨h, e, h1, h2, h3, h4⟩
  · rw [e]
    have hl : ¬ (m = page.length ∧ inf = true) := fun hl => by simp only [hl] at h3; simp at h3
    rw [hat m h1 h2 hl] at h3
    refine ⟨h1, by omega, fun t ht => ?_, Or.inr ⟨page[m - 1], List.getElem?_eq_getElem (by omega), by rw [h3]; decide⟩⟩
    obtain ⟨i, hi, rfl⟩ := List.getElem_of_mem ht
    simp only [List.length_take] at hi
    rw [List.getElem_take]
    exact hpw i (m - 1) (by omega) (by omega) (by omega) (by rw [Nat.sub_add_cancel (by omega)]; exact hl) (by rw [h3]; decide)
  · rw [e]
    have hh : h ≤ page.length := by
      by_contra hgt
      have := h3 page.length (by omega) (by omega)
      rcases hk with hk | ⟨t, ht, hk⟩
      · simp [hk] at this
      · by_cases hinf : inf = true
        · simp [hinf] at this
        · rw [hat _ (by omega) (by omega) (by simp [hinf])] at this
          rw [List.getLast?_eq_getElem?, List.getElem?_eq_getElem (by omega), Option.some.injEq] at ht
          rw [ht] at this
          exact hk this
    refine ⟨h1, hh, fun t ht => ?_, ?_⟩
    · obtain ⟨i, hi, rfl⟩ := List.getElem_of_mem ht
      simp only [List.length_take] at hi
      rw [List.getElem_take]
      have := h3 (i + 1) (by omega) (by omega)
      rw [hat (i + 1) (by omega) (by omega) (by omega)] at this
      exact this
    · by_cases hl : h = page.length ∧ inf = true
      · exact Or.inl hl
      · right
        have := h4 h (Nat.le_refl _) (by omega)
        rw [hat h h1 (by omega) hl] at this
        exact ⟨page[h - 1], List.getElem?_eq_getElem (by omega), by rw [this]; decide⟩

/-- **C17, interior pages of the entry tree.** On every page of any size whose separators are in key order (the last one
of a rightmost page does not matter), for every key that belongs on the page: the chosen downlink is the one whose range
contains the key, the last one of a rightmost page counting as +infinity. -/
theorem C17_interior (cmp : K → T → Ordering) (rightmost : Bool) (page : List T) (hne : page ≠ [])
    (hp : KeyOrder cmp (if rightmost then page.dropLast else page)) (k : K)
    (hk : rightmost = true ∨ ∃ t, page.getLast? = some t ∧ cmp k t ≠ .gt) :
    Covers cmp page rightmost k (locateEntry cmp rightmost page k) :=
  interior_search cmp page rightmost hne hp k hk

/-- **C17, interior pages of posting trees.** The same, the last downlink always counting as +infinity. -/
theorem C17_interior_data (cmp : K → T → Ordering) (page : List T) (hne : page ≠ []) (hp : KeyOrder cmp page.dropLast) (k : K) :
    Covers cmp page true k (locateData cmp page k) := by
  have := interior_search cmp page true hne (by simpa using hp) k (Or.inl rfl)
  simpa [locateData] using this

/-- **C17, finding a child.** Whatever position was remembered, the lookup of a downlink by block number returns a
position of it if the page has it, and 0 only if it does not. -/
theorem C17_find_child (downs : List Nat) (blkno storedOff : Nat) :
    (∃ off, findChildPtr downs blkno storedOff = off ∧ 1 ≤ off ∧ downs[off - 1]? = some blkno) ∨
    (findChildPtr downs blkno storedOff = 0 ∧ blkno ∉ downs) := by
  unfold findChildPtr
  split
  · next h =>
    split
    · next h2 => exact Or.inl ⟨_, rfl, h.1, h2⟩
    · next h2 =>
      cases hd : (downs.drop storedOff).findIdx? (· == blkno) with
      | some i =>
        left
        have := findIdx_beq.1 i hd
        rw [List.getElem?_drop] at this
        exact ⟨_, rfl, by simp only; omega, by simp only; rw [show storedOff + 1 + i - 1 = storedOff + i by omega]; exact this⟩
      | none =>
        cases ht : (downs.take (storedOff - 1)).findIdx? (· == blkno) with
        | some i =>
          left
          have := findIdx_beq.1 i ht
          rw [List.getElem?_take] at this
          refine ⟨_, rfl, by simp only; omega, ?_⟩
          simp only [Nat.add_sub_cancel]
          split at this
          · exact this
          · cases this
        | none =>
          right
          refine ⟨rfl, fun hb => ?_⟩
          have h3 := findIdx_beq.2 hd
          have h4 := findIdx_beq.2 ht
          have : downs = downs.take (storedOff - 1) ++ (downs[storedOff - 1]'(by omega) :: downs.drop storedOff) := by
            have := List.drop_eq_getElem_cons (show storedOff - 1 < downs.length by omega)
            rw [Nat.sub_add_cancel h.1] at this
            rw [← this, List.take_append_drop]
          rw [this] at hb
          rcases List.mem_append.1 hb with h' | h'
          · exact h4 h'
          · rcases List.mem_cons.1 h' with h' | h'
            · apply h2
              rw [List.getElem?_eq_getElem (by omega), h']
            · exact h3 h'
  · cases hd : downs.findIdx? (· == blkno) with
    | some i => exact Or.inl ⟨_, rfl, by simp, by simpa using findIdx_beq.1 i hd⟩
    | none => exact Or.inr ⟨rfl, findIdx_beq.2 hd⟩

/-- The hypotheses are met: keys 10, 20, 30. -/
example : KeyOrder (fun k t : Nat => compare k t) [10, 20, 30] := KeyOrder.of_sorted (T := Nat) compare id _ (by decide)
example : locateLeaf (fun k t : Nat => compare k t) [10, 20, 30] 20 = (true, 2) := by decide
example : locateLeaf (fun k t : Nat => compare k t) [10, 20, 30] 25 = (false, 3) := by decide
example : locateEntry (fun k t : Nat => compare k t) true [10, 20, 30] 99 = 3 := by decide
example : locateData (fun k t : Nat => compare k t) [10, 20, 30] 15 = 2 := by decide

/-! ### C16 -/

/-- Space for tuples on a page: BLCKSZ less page header and opaque data. -/
def pageCap : Nat := 8192 - 24 - 16

/-- RumMaxItemSize for BLCKSZ = 8192, /repo/src/rum.h:252-256: `MAXALIGN_DOWN((8192 - MAXALIGN(24 + 12) - 16) / 3)`. -/
def maxItemSize : Nat := (8192 - 40 - 16) / 3 / 8 * 8

/-- What the page must contain afterwards: the new tuple in its place, instead of the one there if it replaces it. -/
def Expected (page : List (ETuple K)) (off : Nat) (ins : Ins K) : List (ETuple K) :=
  page.take (off - 1) ++ ins.entry :: page.drop (if ins.isDelete then off else off - 1)

/-- A split result is right for the list `all`: every tuple on exactly one side in order, neither side empty, both fit, and
the separator is the last tuple of the left side. -/
structure GoodSplit (all : List (ETuple K)) (s : ESplit K) : Prop where
  all : s.left ++ s.right = all
  left : s.left ≠ []
  right : s.right ≠ []
  fitsLeft : used s.left ≤ pageCap
  fitsRight : used s.right ≤ pageCap
  sep : ∃ t, s.sep = some t ∧ s.left.getLast? = some t

/-- With keys in strict order, the separator is the greatest key of the left side and smaller than all of the right. -/
theorem GoodSplit.separates {all : List (ETuple K)} {s : ESplit K} (h : GoodSplit all s) (cmp : K → K → Ordering)
    [TransCmp cmp] (hs : SSorted cmp (all.map ETuple.key)) :
    ∃ t, s.sep = some t ∧ (∀ a ∈ s.left, cmp a.key t.key ≠ .gt) ∧ ∀ b ∈ s.right, cmp t.key b.key = .lt := by
  obtain ⟨t, h1, h2⟩ := h.sep
  refine ⟨t, h1, ?_⟩
  rw [← h.all, List.map_append] at hs
  obtain ⟨s1, -, s3⟩ := List.pairwise_append.1 hs
  have ht := List.mem_of_getLast? h2
  refine ⟨fun a ha => ?_, fun b hb => s3 t.key (List.mem_map_of_mem ht) b.key (List.mem_map_of_mem hb)⟩
  rw [List.pairwise_map] at s1
  obtain ⟨init, hin⟩ := List.getLast?_eq_some_iff.1 h2
  rw [hin] at s1 ha
  rcases List.mem_append.1 ha with h' | h'
  · rw [(List.pairwise_append.1 s1).2.2 a h' t (by simp)]; decide
  · simp at h'; subst h'; rw [ReflCmp.compare_self (cmp := cmp)]; decide

theorem entry_split_core (all : List (ETuple K)) (hM : ∀ t ∈ all, t.size ≤ maxItemSize)
    (hlo : pageCap - 4 < used all) (hhi : used all ≤ pageCap + (maxItemSize + 4)) :
    let d := distribute (used all / 2) 0 all
    (used d.1 ≤ pageCap ∧ used d.2 ≤ pageCap) ∧ GoodSplit all ⟨d.1, d.2, d.1.getLast?⟩ := by
  intro d
  have happ : d.1 ++ d.2 = all := distribute_append _ _ _
  have hsum : used d.1 + used d.2 = used all := by rw [← used_append, happ]
  have hcap : pageCap = 8152 := rfl
  have hmax : maxItemSize = 2712 := by decide
  obtain ⟨h1, h2, h3⟩ := distribute_size (used all / 2) 2716 all (fun t ht => by
    have := hM t ht; rw [hmax] at this; simp [ETuple.space]; omega) 0 (by omega)
  simp only [Nat.zero_add] at h1 h2 h3
  rw [hcap] at hlo hhi ⊢
  rw [hmax] at hhi
  have hr : d.2 ≠ [] := by
    intro h
    have : used d.2 = 0 := by rw [h]; rfl
    have h1' : used d.1 ≤ used all / 2 + 2716 := h1
    omega
  have hl : used all / 2 < used d.1 := h2 hr
  have hl' : used d.1 ≤ used all / 2 + 2716 := h1
  have hlne : d.1 ≠ [] := by
    intro h
    have : used d.1 = 0 := by rw [h]; rfl
    omega
  have f1 : used d.1 ≤ 8152 := by omega
  have f2 : used d.2 ≤ 8152 := by omega
  refine ⟨⟨f1, f2⟩, happ, hlne, hr, f1, f2, ?_⟩
  obtain ⟨t, ht⟩ : ∃ t, d.1.getLast? = some t := by
    cases hg : d.1.getLast? with
    | none => exact absurd (List.getLast?_eq_none_iff.1 hg) hlne
    | some t => exact ⟨t, rfl⟩
  exact ⟨t, ht, ht⟩

/-- **C16, leaf pages.** For every page content that fits, every position and every new tuple up to the maximum item size,
inserted or replacing the tuple at the position: if there is not enough space, the split succeeds (no tuple fails to be
added), and is right. -/
theorem C16_leaf_split (page : List (ETuple K)) (off : Nat) (ins : Ins K) (h1 : 1 ≤ off)
    (h2 : if ins.isDelete then off ≤ page.length else off ≤ page.length + 1)
    (hfit : used page ≤ pageCap) (hM : ∀ t ∈ page, t.size ≤ maxItemSize) (hE : ins.entry.size ≤ maxItemSize)
    (hfull : enoughSpace pageCap page off ins = false) :
    ∃ s, splitPage pageCap true page off ins = some s ∧ GoodSplit (Expected page off ins) s := by
  have hall : collect off ins.entry 1 (preparePage true page off ins) = Expected page off ins := by
    unfold preparePage Expected
    cases hd : ins.isDelete with
    | true =>
      rw [hd] at h2
      simp only [if_true] at h2 ⊢
      rw [collect_eq off ins.entry _ 1 h1 (by rw [List.length_eraseIdx_of_lt (by omega)]; omega)]
      rw [List.eraseIdx_eq_take_drop_succ, Nat.sub_add_cancel h1]
      have hlen : (page.take (off - 1)).length = off - 1 := by simp; omega
      rw [List.take_append_of_le_length (by omega), List.take_of_length_le (by omega),
        List.drop_append_of_le_length (by omega), List.drop_of_length_le (by omega)]
      simp
    | false =>
      rw [hd] at h2
      simp only [Bool.false_eq_true, if_false] at h2 ⊢
      exact collect_eq off ins.entry _ 1 h1 (by omega)
  have hused : used (Expected page off ins) + replacedSpace page off ins =
      used page + ins.entry.space := by
    unfold Expected replacedSpace
    rw [used_append, used_cons]
    cases hd : ins.isDelete with
    | true =>
      rw [hd] at h2
      simp only [if_true] at h2 ⊢
      rw [List.getElem?_eq_getElem (by omega)]
      have := List.drop_eq_getElem_cons (show off - 1 < page.length by omega)
      rw [Nat.sub_add_cancel h1] at this
      have e : used page = used (page.take (off - 1)) + (used (page.drop off) + (page[off - 1]'(by omega)).space) := by
        conv => lhs; rw [← List.take_append_drop (off - 1) page, this]
        rw [used_append, used_cons]; omega
      simp only; omega
    | false =>
      simp only [Bool.false_eq_true, if_false]
      have e : used page = used (page.take (off - 1)) + used (page.drop (off - 1)) := by
        conv => lhs; rw [← List.take_append_drop (off - 1) page]
        rw [used_append]
      omega
  replace hfull := of_decide_eq_false hfull
  simp only [pageFree] at hfull
  have hsp : ins.entry.space = ins.entry.size + 4 := rfl
  have hold : replacedSpace page off ins ≤ used page := by
    unfold replacedSpace
    split
    · split
      · next t ht =>
        have hm := List.mem_of_getElem? ht
        obtain ⟨a, b, hab⟩ := List.append_of_mem hm
        rw [hab, used_append, used_cons]; omega
      · omega
    · omega
  have hmem : ∀ t ∈ Expected page off ins, t.size ≤ maxItemSize := by
    intro t ht
    unfold Expected at ht
    rcases List.mem_append.1 ht with h | h
    · exact hM t (List.mem_of_mem_take h)
    · rcases List.mem_cons.1 h with h | h
      · subst h; exact hE
      · exact hM t (List.mem_of_mem_drop h)
  obtain ⟨hf, hg⟩ := entry_split_core (Expected page off ins) hmem (by omega) (by omega)
  refine ⟨_, ?_, hg⟩
  unfold splitPage
  simp only [hall]
  rw [if_pos hf]

/-- **C16, interior pages.** The same for an interior page on which a child at position `off` was split: the separator of
the left half with its block number is inserted before it, and the old downlink is redirected to the right half. -/
theorem C16_interior_split (page : List (ETuple K)) (off : Nat) (entry : ETuple K) (right : Nat) (h1 : 1 ≤ off)
    (h2 : off ≤ page.length) (hfit : used page ≤ pageCap) (hM : ∀ t ∈ page, t.size ≤ maxItemSize)
    (hE : entry.size ≤ maxItemSize) (hfull : enoughSpace pageCap page off ⟨entry, false, some right⟩ = false) :
    ∃ s t, page[off - 1]? = some t ∧ splitPage pageCap false page off ⟨entry, false, some right⟩ = some s ∧
      GoodSplit (page.take (off - 1) ++ entry :: { t with down := right } :: page.drop off) s := by
  have hlt : off - 1 < page.length := by omega
  have hdrop := List.drop_eq_getElem_cons hlt
  rw [Nat.sub_add_cancel h1] at hdrop
  have hlen : (page.take (off - 1)).length = off - 1 := by simp; omega
  have hprep : preparePage false page off ⟨entry, false, some right⟩ =
      page.take (off - 1) ++ { page[off - 1] with down := right } :: page.drop off := by
    unfold preparePage
    simp only [Bool.false_eq_true, if_false]
    rw [List.modify_eq_take_cons_drop hlt, Nat.sub_add_cancel h1]
  have hall : collect off entry 1 (preparePage false page off ⟨entry, false, some right⟩) =
      page.take (off - 1) ++ entry :: { page[off - 1] with down := right } :: page.drop off := by
    rw [collect_eq off entry _ 1 h1 (by rw [hprep]; simp; omega), hprep]
    rw [List.take_append_of_le_length (by omega), List.take_of_length_le (by omega),
      List.drop_append_of_le_length (by omega), List.drop_of_length_le (by omega)]
    simp
  have hused : used (page.take (off - 1) ++ entry :: { page[off - 1] with down := right } :: page.drop off) = used page + entry.space := by
    rw [used_append, used_cons, used_cons]
    have e : used page = used (page.take (off - 1)) + (page[off - 1].space + used (page.drop off)) := by
      conv => lhs; rw [← List.take_append_drop (off - 1) page, hdrop]
      rw [used_append, used_cons]
    have : ({ page[off - 1] with down := right } : ETuple K).space = page[off - 1].space := rfl
    omega
  replace hfull := of_decide_eq_false hfull
  simp only [pageFree, replacedSpace, Bool.false_eq_true, if_false] at hfull
  have hsp : entry.space = entry.size + 4 := rfl
  have hmem : ∀ t ∈ page.take (off - 1) ++ entry :: { page[off - 1] with down := right } :: page.drop off, t.size ≤ maxItemSize := by
    intro t ht
    rcases List.mem_append.1 ht with h | h
    · exact hM t (List.mem_of_mem_take h)
    · rcases List.mem_cons.1 h with h | h
      · subst h; exact hE
      · rcases List.mem_cons.1 h with h | h
        · subst h; exact hM page[off - 1] (List.getElem_mem hlt)
        · exact hM t (List.mem_of_mem_drop h)
  obtain ⟨hf, hg⟩ := entry_split_core _ hmem (by omega) (by omega)
  refine ⟨_, page[off - 1], List.getElem?_eq_getElem hlt, ?_, hg⟩
  unfold splitPage
  simp only [hall]
  rw [if_pos hf]

/-- The hypotheses are met by a page of three tuples of maximum size and a fourth one. -/
example : ∃ (page : List (ETuple Nat)) (ins : Ins Nat), used page ≤ pageCap ∧ (∀ t ∈ page, t.size ≤ maxItemSize) ∧
    ins.entry.size ≤ maxItemSize ∧ enoughSpace pageCap page 2 ins = false ∧
    (splitPage pageCap true page 2 ins).map (fun s => (s.left.length, s.right.length)) = some (3, 1) := by
  refine ⟨[⟨1, 2712, 0⟩, ⟨3, 2712, 0⟩, ⟨4, 2712, 0⟩], ⟨⟨2, 2712, 0⟩, false, none⟩, by decide, by decide, by decide, by decide, by decide⟩

end Rum.Props
