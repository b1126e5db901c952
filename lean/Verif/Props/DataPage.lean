import Verif.DataPageLemmas
import Verif.Props.LeafPage
import Mathlib.Tactic.Tauto
/-
Property theorems C07 (placing items on a leaf page) and C08 (splitting a leaf page).
-/
namespace Rum.Props
open Rum Rum.Codec Rum.Leaf Std

/-! ### Specification vocabulary -/

/-- Page `p` holds exactly the items `its`: they are storable, in their stored form, strictly sorted in the index order,
and the page (bytes, item count and directory) is their encoding. By C06 such a page answers every lookup correctly. -/
structure Holds (x : Ctx) (p : Page) (its : List (Item Datum)) : Prop where
  ok : ∀ it ∈ its, ItemOK x.cfg it
  stored : ∀ it ∈ its, it.stored x.cfg = it
  sorted : SSorted x.cmp its
  built : buildPage x.cfg its = some p

/-- A batch of new items: storable, stored form, strictly sorted, valid offset numbers. -/
structure Batch (x : Ctx) (items : List (Item Datum)) : Prop where
  ok : ∀ it ∈ items, ItemOK x.cfg it
  stored : ∀ it ∈ items, it.stored x.cfg = it
  sorted : SSorted x.cmp items
  valid : ∀ it ∈ items, 1 ≤ it.iptr.off

/-! ### Helpers -/

theorem Holds.facts {x : Ctx} {p : Page} {its : List (Item Datum)} (h : Holds x p its) :
    placeList x.cfg 0 ⟨0, 0⟩ its = some p.data ∧ p.maxoff = its.length ∧ DirOK x.cfg its p.index ∧
      p.data.length = checkList x.cfg ⟨0, 0⟩ 0 its := by
  obtain ⟨data, hd, hdl⟩ := placeList_ok x.cfg its 0 ⟨0, 0⟩ h.ok
  obtain ⟨idx, hi1, hi2, hi3⟩ := updateItemIndexes_ok x.cfg its data h.ok h.stored hd
  have hb := h.built
  simp only [buildPage, hd, hi1, Option.some.injEq] at hb
  subst hb
  exact ⟨hd, rfl, hi3, by simpa using hdl⟩

theorem holds_of {x : Ctx} {its : List (Item Datum)} {data : List Nat} {idx : List IndexEnt} {e : Nat}
    (ok : ∀ it ∈ its, ItemOK x.cfg it) (st : ∀ it ∈ its, it.stored x.cfg = it) (so : SSorted x.cmp its)
    (hd : placeList x.cfg 0 ⟨0, 0⟩ its = some data) (hi : updateItemIndexes x.cfg data its.length = some (idx, e)) :
    Holds x ⟨data, its.length, idx⟩ its :=
  ⟨ok, st, so, by simp only [buildPage, hd, hi]⟩

theorem merge_mem_iff {α : Type} (cmp : α → α → Ordering) [TransCmp cmp] (as bs : List α) (ha : SSorted cmp as)
    (hb : SSorted cmp bs) (z : α) :
    z ∈ mergeItems cmp as bs ↔ z ∈ bs ∨ (z ∈ as ∧ ∀ o ∈ bs, cmp o z ≠ .eq) := by
  have hs := merge_sorted cmp as bs ha hb
  constructor
  · intro hz
    by_cases h : z ∈ bs
    · exact Or.inl h
    · right
      have hza : z ∈ as := by rcases merge_mem cmp as bs z hz with h' | h'
                              · exact h'
                              · exact absurd h' h
      refine ⟨hza, fun o ho he => ?_⟩
      have ho' := merge_mem_right cmp as bs o ho
      obtain ⟨i, hi, rfl⟩ := List.getElem_of_mem hz
      obtain ⟨j, hj, rfl⟩ := List.getElem_of_mem ho'
      rcases Nat.lt_trichotomy i j with hij | hij | hij
      · have := List.pairwise_iff_getElem.1 hs i j hi hj hij
        rw [OrientedCmp.eq_symm he] at this; cases this
      · subst hij; exact h ho
      · have := List.pairwise_iff_getElem.1 hs j i hj hi hij
        rw [he] at this; cases this
  · rintro (h | ⟨h, h'⟩)
    · exact merge_mem_right cmp as bs z h
    · rcases merge_mem_left' cmp as bs z h with h1 | ⟨y, hy, he⟩
      · exact h1
      · exact absurd (OrientedCmp.eq_symm he) (h' y hy)

/-- The position found on a page, in terms of the list. -/
theorem locate (x : Ctx) [TransCmp x.cmpV] (p : Page) (its : List (Item Datum)) (hp : Holds x p its) (key : Item Datum)
    (hkey : 1 ≤ key.iptr.off) :
    ∃ f k, findInLeafPage x p key = some f ∧ k ≤ its.length ∧ f.offset = k + 1 ∧
      (∀ i (h : i < its.length), i < k → x.cmp its[i] key = .lt) ∧
      (∀ h : k < its.length, x.cmp its[k] key ≠ .lt) ∧
      placeList x.cfg 0 ⟨0, 0⟩ (its.take k) = some (p.data.take f.ptr) ∧
      (x.cfg.alt = false → f.iptr = lastIptr ⟨0, 0⟩ (its.take k)) ∧
      readList x.cfg f.ptr f.iptr (p.maxoff + 1 - f.offset) (p.data.drop f.ptr) = some (its.drop k, []) := by
  obtain ⟨hd, hm, hdir, hlen⟩ := hp.facts
  obtain ⟨page, hpage, _, f', hf', _, hoff, hread⟩ := C06_directory_lookup_exact x its key hp.ok hp.stored hp.sorted hkey
  rw [hp.built] at hpage
  simp only [Option.some.injEq] at hpage
  subst hpage
  obtain ⟨data, maxoff, idx⟩ := p
  simp only at hd hm hdir hlen
  subst hm
  obtain ⟨f, hf1, hf2, hf3, hf4, hf5⟩ :=
    findInLeafPage_ok x its data idx key hp.ok hp.stored hd hp.sorted hdir (minItem_lt x key hkey)
  rw [hf1] at hf'
  simp only [Option.some.injEq] at hf'
  subst hf'
  have hk := lessCount_le x key its
  generalize hkk : lessCount x key its = k at *
  have hsplit : its = its.take k ++ its.drop k := by simp
  have hd' := hd
  rw [hsplit] at hd'
  obtain ⟨b1, b2, h1, h2, h3⟩ := placeList_append x.cfg _ _ _ _ _ hd'
  obtain ⟨y, hy1, hy2⟩ := placeList_ok x.cfg (its.take k) 0 ⟨0, 0⟩ (fun a ha => hp.ok a (List.mem_of_mem_take ha))
  rw [h1] at hy1
  simp only [Option.some.injEq] at hy1
  subst hy1
  have hptr : f.ptr = b1.length := by rw [hf3]; unfold posOf; omega
  have hlow : ∀ i (h : i < its.length), i < k → x.cmp its[i] key = .lt := by
    intro i h hi; rw [← hkk] at hi; exact lessCount_lt x key its i h hi
  have hhigh : ∀ h : k < its.length, x.cmp its[k] key ≠ .lt := by
    subst hkk; exact lessCount_at x key its
  have hdrop : its.filter (fun it => x.cmp it key != .lt) = its.drop k := by
    conv => lhs; rw [hsplit]
    rw [List.filter_append]
    have e1 : (its.take k).filter (fun it => x.cmp it key != .lt) = [] := by
      rw [List.filter_eq_nil_iff]
      intro a ha
      obtain ⟨i, hi, rfl⟩ := List.getElem_of_mem ha
      simp only [List.length_take] at hi
      rw [List.getElem_take]
      simp [hlow i (by omega) (by omega)]
    have e2 : (its.drop k).filter (fun it => x.cmp it key != .lt) = its.drop k := by
      rw [List.filter_eq_self]
      intro a ha
      have htr : TransCmp x.cmp := cmpItem_trans _ _
      obtain ⟨i, hi, rfl⟩ := List.getElem_of_mem ha
      simp only [List.length_drop] at hi
      rw [List.getElem_drop]
      simp only [bne_iff_ne, ne_eq]
      intro hlt
      have h0 := hhigh (by omega)
      by_cases hi0 : i = 0
      · subst hi0; exact h0 (by simpa using hlt)
      · have := List.pairwise_iff_getElem.1 hp.sorted k (k + i) (by omega) (by omega) (by omega)
        exact h0 (TransCmp.lt_trans this hlt)
    rw [e1, e2, List.nil_append]
  refine ⟨f, k, hf1, hk, hf2, hlow, hhigh, ?_, hf4, ?_⟩
  · rw [h1, hptr, h3]; simp
  · have := hread []
    rw [hdrop, List.append_nil] at this
    exact this

theorem bounded_of_loop (x : Ctx) [TransCmp x.cmpV] (rb : Option (Item Datum)) (old new : List (Item Datum)) (s : MergeSt) :
    ∀ s' rest, mergeLoop x rb old new s = some (s', rest) → ∀ n ∈ new, n ∈ rest ∨ (∃ o ∈ old, x.cmp n o ≠ .gt) ∨
      ∀ b, rb = some b → x.cmp n b ≠ .gt := by
  have htr : TransCmp x.cmp := cmpItem_trans _ _
  fun_induction mergeLoop x rb old new s with
  | case1 o os n ns s hstop ih | case2 o os n ns s hstop _ ih | case5 o os n ns s hstop _ _ ih =>
    intro s' rest h m hm
    rw [Option.bind_eq_some_iff] at h
    obtain ⟨t, _, h⟩ := h
    rcases ih _ _ _ h m hm with h | ⟨y, hy, h⟩ | h
    · exact Or.inl h
    · exact Or.inr (Or.inl ⟨y, by simp [hy], h⟩)
    · exact Or.inr (Or.inr h)
  | case3 o os n ns s hstop hc ih =>
    intro s' rest h m hm
    rw [Option.bind_eq_some_iff] at h
    obtain ⟨t, _, h⟩ := h
    rcases List.mem_cons.1 hm with rfl | hm
    · exact Or.inr (Or.inl ⟨o, by simp, by rw [OrientedCmp.eq_symm hc]; decide⟩)
    · rcases ih _ _ _ h m hm with h | ⟨y, hy, h⟩ | h
      · exact Or.inl h
      · exact Or.inr (Or.inl ⟨y, by simp [hy], h⟩)
      · exact Or.inr (Or.inr h)
  | case4 o os n ns s hstop hc _ ih =>
    intro s' rest h m hm
    rw [Option.bind_eq_some_iff] at h
    obtain ⟨t, _, h⟩ := h
    rcases List.mem_cons.1 hm with rfl | hm
    · exact Or.inr (Or.inl ⟨o, by simp, by rw [OrientedCmp.lt_of_gt hc]; decide⟩)
    · exact ih _ _ _ h m hm
  | case7 n ns s hstop hrb _ ih =>
    intro s' rest h m hm
    rw [Option.bind_eq_some_iff] at h
    obtain ⟨t, _, h⟩ := h
    rcases List.mem_cons.1 hm with rfl | hm
    · right; right
      intro b hb hgt
      subst hb
      have : x.cmp b m ≠ .lt := by simpa using hrb
      exact this (OrientedCmp.lt_of_gt hgt)
    · exact ih _ _ _ h m hm
  | case6 | case8 | case9 => intro s' rest h m hm; simp at h; rw [← h.2]; exact Or.inl hm
  | case10 o os s ih => intro s' rest h m hm; simp at hm
  | case11 => intro s' rest h m hm; simp at hm

/-! ### C07 -/

/-- **C07.** For every leaf page, every non-empty sorted batch, every amount of free space and every right bound: placing
the batch succeeds and leaves a page that holds exactly the old items plus the consumed front part of the batch (items
equal to one already there are consumed without replacing it), sorted and without duplicates; the part reported as not
placed is exactly the rest of the batch, and nothing beyond the page's right bound was placed. If the page has room for
the first item and it is within the bound, at least one item is consumed. -/
theorem C07_place_exact (x : Ctx) [TransCmp x.cmpV] (cap : Nat) (p : Page) (its items : List (Item Datum))
    (rb : Option (Item Datum)) (hp : Holds x p its) (hb : Batch x items) (hne : items ≠ []) :
    ∃ p' k its', placeToLeaf x cap p rb items = some (p', items.drop k) ∧ k ≤ items.length ∧ Holds x p' its' ∧
      (∀ it, it ∈ its' ↔ it ∈ its ∨ (it ∈ items.take k ∧ ∀ o ∈ its, x.cmp o it ≠ .eq)) ∧
      (∀ b, rb = some b → (∀ o ∈ its, x.cmp o b ≠ .gt) → ∀ it ∈ its', x.cmp it b ≠ .gt) ∧
      (padOf x.cfg ∣ 8 → leafEnoughSpace x.cfg cap p (items.head hne) = true →
        (∀ b, rb = some b → x.cmp (items.head hne) b ≠ .gt) → 1 ≤ k) := by
  have htr : TransCmp x.cmp := cmpItem_trans _ _
  obtain ⟨key, items', rfl⟩ : ∃ a l, items = a :: l := by
    cases items with
    | nil => exact absurd rfl hne
    | cons a l => exact ⟨a, l, rfl⟩
  obtain ⟨f, j, hf, hj, hoff, hlow, hhigh, hpre, hipt, hread⟩ := locate x p its hp key (hb.valid key (by simp))
  obtain ⟨hd, hm, hdir, hlen⟩ := hp.facts
  obtain ⟨s', k, h1, h2, h3, h4, h5, h6⟩ := mergeLoop_ok x rb (its.drop j) (key :: items')
    ⟨p.data.take f.ptr, f.iptr, cap - p.data.length, false, 0⟩ (its.take j)
    (fun it hit => hp.ok it (List.mem_of_mem_drop hit)) hb.ok ⟨hpre, hipt⟩
  have hsubk : SSorted x.cmp ((key :: items').take k) := hb.sorted.sublist (List.take_sublist _ _)
  -- the whole merge
  have hpref : ∀ (a : List (Item Datum)) (ns b : List (Item Datum)), (∀ o ∈ a, ∀ n ∈ ns, x.cmp o n = .lt) →
      mergeItems x.cmp ns (a ++ b) = a ++ mergeItems x.cmp ns b := by
    intro a
    induction a with
    | nil => intros; rfl
    | cons o a ih =>
      intro ns b h
      cases ns with
      | nil => simp [merge_nil_left]
      | cons n ns =>
        rw [List.cons_append, mergeItems]
        have : x.cmp n o = .gt := OrientedCmp.gt_of_lt (h o (by simp) n (by simp))
        simp only [this]
        rw [ih (n :: ns) b (fun o' ho' => h o' (by simp [ho'])), List.cons_append]
  have hkeyle : ∀ n ∈ key :: items', x.cmp key n ≠ .gt := by
    intro n hn
    rcases List.mem_cons.1 hn with rfl | hn
    · rw [ReflCmp.compare_self (cmp := x.cmp)]; decide
    · rw [(List.pairwise_cons.1 hb.sorted).1 n hn]; decide
  have hall : its.take j ++ mergeItems x.cmp ((key :: items').take k) (its.drop j) =
      mergeItems x.cmp ((key :: items').take k) its := by
    have := hpref (its.take j) ((key :: items').take k) (its.drop j) (by
      intro o ho n hn
      obtain ⟨i, hi, rfl⟩ := List.getElem_of_mem ho
      simp only [List.length_take] at hi
      rw [List.getElem_take]
      have l1 := hlow i (by omega) (by omega)
      have l2 := hkeyle n (List.mem_of_mem_take hn)
      cases hc : x.cmp key n with
      | lt => exact TransCmp.lt_trans l1 hc
      | eq => exact TransCmp.lt_of_lt_of_eq l1 hc
      | gt => exact absurd hc l2)
    rw [List.take_append_drop] at this
    exact this.symm
  rw [hall] at h3
  have hmerge_len : s'.ins + its.length = (mergeItems x.cmp ((key :: items').take k) its).length := by
    rw [← hall]; simp only [List.length_append, List.length_take]
    simp only [List.length_drop] at h4
    omega
  have hok' : ∀ it ∈ mergeItems x.cmp ((key :: items').take k) its, ItemOK x.cfg it := by
    intro it hit
    rcases merge_mem x.cmp _ _ it hit with h | h
    · exact hb.ok it (List.mem_of_mem_take h)
    · exact hp.ok it h
  have hst' : ∀ it ∈ mergeItems x.cmp ((key :: items').take k) its, it.stored x.cfg = it := by
    intro it hit
    rcases merge_mem x.cmp _ _ it hit with h | h
    · exact hb.stored it (List.mem_of_mem_take h)
    · exact hp.stored it h
  have hso' := merge_sorted x.cmp _ _ hsubk hp.sorted
  obtain ⟨idx, hi1, hi2, hi3⟩ := updateItemIndexes_ok x.cfg _ s'.out hok' hst' h3.1
  have hmo : p.maxoff + s'.ins = (mergeItems x.cmp ((key :: items').take k) its).length := by omega
  refine ⟨⟨s'.out, p.maxoff + s'.ins, idx⟩, k, mergeItems x.cmp ((key :: items').take k) its, ?_, h2, ?_, ?_, ?_, ?_⟩
  · simp only [placeToLeaf, hf, hread, h1, hmo, hi1]
  · rw [hmo]; exact holds_of hok' hst' hso' h3.1 hi1
  · exact merge_mem_iff x.cmp _ _ hsubk hp.sorted
  · intro b hrb hbnd it hit
    rcases merge_mem x.cmp _ _ it hit with h | h
    · rcases bounded_of_loop x rb _ _ _ _ _ h1 it (List.mem_of_mem_take h) with h' | ⟨o, ho, h'⟩ | h'
      · exfalso
        have := hb.sorted
        rw [← List.take_append_drop k (key :: items')] at this
        have h0 := (List.pairwise_append.1 this).2.2 it h it h'
        rw [ReflCmp.compare_self (cmp := x.cmp)] at h0; cases h0
      · have h0 := hbnd o (List.mem_of_mem_drop ho)
        intro hgt
        have g1 := OrientedCmp.lt_of_gt hgt
        cases hc : x.cmp it o with
        | lt => exact h0 (OrientedCmp.gt_of_lt (TransCmp.lt_trans g1 hc))
        | eq => exact h0 (OrientedCmp.gt_of_lt (TransCmp.lt_of_lt_of_eq g1 hc))
        | gt => exact h' hc
      · exact h' b hrb
    · exact hbnd it h
  · intro hpad hsp hrb
    have hprog := mergeLoop_progress x rb key items' (hb.ok key (by simp)) hpad
      (fun b hh hlt => hrb b hh (OrientedCmp.gt_of_lt hlt)) (its.drop j)
      ⟨p.data.take f.ptr, f.iptr, cap - p.data.length, false, 0⟩ s' _
      (fun it hit => hp.ok it (List.mem_of_mem_drop hit)) rfl
      (fun ha => by
        rw [hipt ha]
        by_cases hj0 : j = 0
        · subst hj0; exact Nat.zero_le _
        · have hjl : j - 1 < its.length := by omega
          have : lastIptr ⟨0, 0⟩ (its.take j) = its[j - 1].iptr := by
            rw [lastIptr_getLast, getLast_take its j (by omega) hj]
          rw [this]
          exact blk_le_of_lt x ha _ _ (by rw [hlow (j - 1) hjl (by omega)]; decide))
      (of_decide_eq_true hsp) h1
    simp only [List.length_drop, List.length_cons] at hprog
    omega


theorem blkSorted_of (x : Ctx) (ha : x.cfg.alt = false) (l : List (Item Datum)) (hs : SSorted x.cmp l) : BlkSorted 0 l := by
  have : ∀ (l : List (Item Datum)) k, SSorted x.cmp l → (∀ y ∈ l, k ≤ y.iptr.blk) → BlkSorted k l := by
    intro l
    induction l with
    | nil => intros; trivial
    | cons a l ih =>
      intro k hp hk
      have hp' := List.pairwise_cons.1 hp
      exact ⟨hk a (by simp), ih _ hp'.2 (fun y hy => blk_le_of_lt x ha a y (by rw [hp'.1 y hy]; decide))⟩
  exact this l 0 hs (fun _ _ => Nat.zero_le _)

/-- **C07, the page is never overfilled**: for every page that fits and every batch, when the additional info of the items needs no
padding (by-value types, byte-aligned types: in particular whenever the index is ordered by additional info; and variable-length
additional info of up to 126 bytes, such as the positions of a lexeme). -/
theorem C07_never_overfilled (x : Ctx) [TransCmp x.cmpV] (cap : Nat) (p p' : Page) (its items rest : List (Item Datum))
    (rb : Option (Item Datum)) (hp : Holds x p its) (hb : Batch x items) (hcap : p.data.length ≤ cap)
    (hpad : ∀ it ∈ its ++ items, padItem x.cfg it = 1) (h : placeToLeaf x cap p rb items = some (p', rest)) : p'.data.length ≤ cap := by
  have htr : TransCmp x.cmp := cmpItem_trans _ _
  have fO : ∀ it ∈ its, Flat x.cfg it := fun it h => ⟨hp.ok it h, hpad it (by simp [h])⟩
  have fN : ∀ it ∈ items, Flat x.cfg it := fun it h => ⟨hb.ok it h, hpad it (by simp [h])⟩
  cases items with
  | nil => simp [placeToLeaf] at h
  | cons key items' =>
  obtain ⟨f, j, hf, hj, hoff, hlow, hhigh, hpre, hipt, hread⟩ := locate x p its hp key (hb.valid key (by simp))
  obtain ⟨hd, hm, hdir, hlen⟩ := hp.facts
  simp only [placeToLeaf, hf, hread] at h
  split at h
  · cases h
  · next s' rest' hl =>
    split at h
    · cases h
    · simp only [Option.some.injEq, Prod.mk.injEq] at h
      obtain ⟨rfl, rfl⟩ := h
      have hjb : x.cfg.alt = false → ∀ o ∈ its.take j, ∀ y ∈ its.drop j, o.iptr.blk ≤ y.iptr.blk := by
        intro ha o ho y hy
        have := hp.sorted
        rw [← List.take_append_drop j its] at this
        exact blk_le_of_lt x ha o y (by rw [(List.pairwise_append.1 this).2.2 o ho y hy]; decide)
      have hlastmem : ∀ l : List (Item Datum), lastIptr ⟨0, 0⟩ l = ⟨0, 0⟩ ∨ ∃ o ∈ l, lastIptr ⟨0, 0⟩ l = o.iptr := by
        intro l
        rw [lastIptr_getLast]
        cases hg : l.getLast? with
        | none => left; rfl
        | some o => right; exact ⟨o, List.mem_of_getLast? hg, rfl⟩
      have hsz := mergeLoop_size x rb (its.drop j) (key :: items') _ (lastIptr ⟨0, 0⟩ (its.take j)) s' rest'
        (fun it hit => fO it (List.mem_of_mem_drop hit)) fN (hp.sorted.sublist (List.drop_sublist _ _)) hb.sorted
        (fun ha => by
          refine ⟨by rw [hipt ha]; exact Nat.le_refl _, fun y hy => ?_, fun _ n hn => ?_⟩
          · rw [hipt ha]
            rcases hlastmem (its.take j) with h | ⟨o, ho, h⟩
            · rw [h]; exact Nat.zero_le _
            · rw [h]; exact hjb ha o ho y hy
          · rw [hipt ha]
            rcases hlastmem (its.take j) with h | ⟨o, ho, h⟩
            · rw [h]; exact Nat.zero_le _
            · rw [h]
              obtain ⟨i, hi, rfl⟩ := List.getElem_of_mem ho
              simp only [List.length_take] at hi
              rw [List.getElem_take]
              have l1 := blk_le_of_lt x ha _ _ (by rw [hlow i (by omega) (by omega)]; decide : x.cmp its[i] key ≠ .gt)
              rcases List.mem_cons.1 hn with rfl | hn
              · exact l1
              · exact Nat.le_trans l1 (blk_le_of_lt x ha _ _ (by rw [(List.pairwise_cons.1 hb.sorted).1 n hn]; decide))) hl
      obtain ⟨y, hy1, hy2⟩ := placeList_ok x.cfg (its.take j) 0 ⟨0, 0⟩ (fun a ha => hp.ok a (List.mem_of_mem_take ha))
      rw [hpre] at hy1
      simp only [Option.some.injEq] at hy1
      have hsum : checkList x.cfg ⟨0, 0⟩ 0 its =
          checkList x.cfg ⟨0, 0⟩ 0 (its.take j) + checkList x.cfg (lastIptr ⟨0, 0⟩ (its.take j)) 0 (its.drop j) := by
        conv => lhs; rw [← List.take_append_drop j its]
        rw [checkList_append]
        have e := checkList_shift' x.cfg 1 (checkList x.cfg ⟨0, 0⟩ 0 (its.take j)) (its.drop j)
          (lastIptr ⟨0, 0⟩ (its.take j)) 0 (fun y hy => ⟨hp.ok y (List.mem_of_mem_drop hy), (fO y (List.mem_of_mem_drop hy)).dvd _⟩)
        rw [Nat.zero_add, Nat.one_mul] at e
        omega
      rw [← hy1] at hy2
      simp only at hsz ⊢
      omega

/-- **C07, never overfilled, appending**: with any alignment up to 8 bytes, for a batch whose items are all greater than
those on the page (what CREATE INDEX does in row-pointer order). -/
theorem C07_never_overfilled_append (x : Ctx) [TransCmp x.cmpV] (cap : Nat) (p p' : Page) (its items rest : List (Item Datum))
    (rb : Option (Item Datum)) (hp : Holds x p its) (hb : Batch x items) (hcap : p.data.length ≤ cap)
    (hpad : padOf x.cfg ∣ 8) (happ : ∀ o ∈ its, ∀ n ∈ items, x.cmp o n = .lt)
    (h : placeToLeaf x cap p rb items = some (p', rest)) : p'.data.length ≤ cap := by
  cases items with
  | nil => simp [placeToLeaf] at h
  | cons key items' =>
  obtain ⟨f, j, hf, hj, hoff, hlow, hhigh, hpre, hipt, hread⟩ := locate x p its hp key (hb.valid key (by simp))
  obtain ⟨hd, hm, hdir, hlen⟩ := hp.facts
  have hjl : j = its.length := by
    by_cases hlt : j < its.length
    · exact absurd (happ _ (List.getElem_mem hlt) key (by simp)) (hhigh hlt)
    · omega
  subst hjl
  rw [List.drop_length] at hread
  simp only [placeToLeaf, hf, hread] at h
  split at h
  · cases h
  · next s' rest' hl =>
    split at h
    · cases h
    · simp only [Option.some.injEq, Prod.mk.injEq] at h
      obtain ⟨rfl, rfl⟩ := h
      have := mergeLoop_append_size x rb hpad _ _ _ _ hb.ok hl
      simp only [List.length_take] at this ⊢
      omega

/-- **C07, never overfilled, one item**: with alignment dividing 4, for a single new item (what inserting one row does),
when the page was found to have room. -/
theorem C07_never_overfilled_single (x : Ctx) [TransCmp x.cmpV] (cap : Nat) (p p' : Page) (its rest : List (Item Datum))
    (n : Item Datum) (rb : Option (Item Datum)) (hp : Holds x p its) (hb : Batch x [n]) (hcap : p.data.length ≤ cap)
    (hpad : padOf x.cfg ∣ 4) (hsp : leafEnoughSpace x.cfg cap p n = true)
    (h : placeToLeaf x cap p rb [n] = some (p', rest)) : p'.data.length ≤ cap := by
  have htr : TransCmp x.cmp := cmpItem_trans _ _
  obtain ⟨q, k, its', h1, h2, h3, h4, -, -⟩ := C07_place_exact x cap p its [n] rb hp hb (by simp)
  rw [h] at h1
  simp only [Option.some.injEq, Prod.mk.injEq] at h1
  obtain ⟨rfl, -⟩ := h1
  obtain ⟨-, -, -, hlen⟩ := hp.facts
  obtain ⟨-, -, -, hlen'⟩ := h3.facts
  have hsp' : checkPlace x.cfg n ⟨0, 0⟩ 0 + 8 ≤ cap - p.data.length := of_decide_eq_true hsp
  by_cases hin : n ∈ its' ∧ n ∉ its
  · obtain ⟨hin, hnin⟩ := hin
    obtain ⟨a, b, hab⟩ := List.append_of_mem hin
    have hits : its = a ++ b := by
      have hs' := h3.sorted
      rw [hab] at hs'
      have hs2 := List.pairwise_append.1 hs'
      have hs3 := List.pairwise_cons.1 hs2.2.1
      apply ssorted_ext x.cmp hp.sorted
      · exact hs'.sublist (List.Sublist.append_left (List.sublist_cons_self n b) a)
      · intro z
        have hz := h4 z
        rw [hab] at hz
        have hirr : ∀ y, x.cmp y y ≠ .lt := fun y => by rw [ReflCmp.compare_self (cmp := x.cmp)]; decide
        constructor
        · intro hh
          have := hz.2 (Or.inl hh)
          simp only [List.mem_append, List.mem_cons] at this ⊢
          rcases this with h | rfl | h
          · exact Or.inl h
          · exact absurd hh hnin
          · exact Or.inr h
        · intro hh
          have : z ∈ a ++ n :: b := by simp only [List.mem_append, List.mem_cons] at hh ⊢; tauto
          rcases hz.1 this with h | ⟨h, -⟩
          · exact h
          · have : z = n := by have := List.mem_of_mem_take h; simpa using this
            subst this
            rcases List.mem_append.1 hh with h | h
            · exact absurd (hs2.2.2 z h z (by simp)) (hirr z)
            · exact absurd (hs3.1 z h) (hirr z)
    have hle := checkList_insert_le x.cfg a b n (fun y hy => hp.ok y (by rw [hits]; simp [hy]))
      (fun y hy => hp.ok y (by rw [hits]; simp [hy])) (hb.ok n (by simp))
      (fun ha => by rw [← hab]; exact blkSorted_of x ha _ h3.sorted) hpad
    rw [hlen', hab]
    rw [← hits, ← hlen] at hle
    omega
  · have : its' = its := by
      apply ssorted_ext x.cmp h3.sorted hp.sorted
      intro z
      rw [h4 z]
      constructor
      · rintro (h | ⟨h, h'⟩)
        · exact h
        · have hz : z = n := by have := List.mem_of_mem_take h; simpa using this
          subst hz
          by_cases hzi : z ∈ its
          · exact hzi
          · exact absurd ⟨(h4 z).2 (Or.inr ⟨h, h'⟩), hzi⟩ hin
      · exact Or.inl
    rw [hlen', this, ← hlen]; exact hcap

-- non-vacuity: a page with three items, a batch of three (one before, one equal, one beyond the bound)
def exCtx : Ctx := ⟨⟨false, some ⟨true, 4, 4, true⟩⟩, false, fun _ _ => .eq⟩
def exIts : List (Item Datum) := [⟨⟨1, 1⟩, some (.byval 7)⟩, ⟨⟨5, 2⟩, none⟩, ⟨⟨9, 3⟩, some (.byval 8)⟩]
def exNew : List (Item Datum) := [⟨⟨4, 1⟩, some (.byval 1)⟩, ⟨⟨5, 2⟩, some (.byval 2)⟩, ⟨⟨30, 1⟩, none⟩]
example : (∃ p, Holds exCtx p exIts ∧ p.data.length ≤ 1000 ∧ leafEnoughSpace exCtx.cfg 1000 p ⟨⟨4, 1⟩, some (.byval 1)⟩ = true) ∧
    Batch exCtx exNew ∧ ∀ it ∈ exIts ++ exNew, padItem exCtx.cfg it = 1 := by
  have hok : ∀ it ∈ exIts, ItemOK exCtx.cfg it := by
    intro it h; simp [exIts] at h; rcases h with h | h | h <;> subst h <;> simp [ItemOK, Iptr.Fits, Datum.Typed, exCtx]
  have hst : ∀ it ∈ exIts, it.stored exCtx.cfg = it := by
    intro it h; simp [exIts] at h; rcases h with h | h | h <;> subst h <;> rfl
  have hso : SSorted exCtx.cmp exIts := by decide
  obtain ⟨data, hd, hdl⟩ := placeList_ok exCtx.cfg exIts 0 ⟨0, 0⟩ hok
  obtain ⟨idx, hi1, hi2, hi3⟩ := updateItemIndexes_ok exCtx.cfg exIts data hok hst hd
  have hlen : data.length = 14 := by
    rw [Nat.zero_add] at hdl
    rw [hdl]
    simp [checkList, exIts, exCtx, checkPlace, sizeIptr, sizeBlk, sizeOff, computeSize]
  refine ⟨⟨⟨data, 3, idx⟩, holds_of hok hst hso hd hi1, by simp [hlen], ?_⟩, ⟨?_, ?_, by decide, by decide⟩, by decide⟩
  · simp [leafEnoughSpace, hlen, exCtx, checkPlace, sizeIptr, sizeBlk, sizeOff, computeSize]
  · intro it h; simp [exNew] at h; rcases h with h | h | h <;> subst h <;> simp [ItemOK, Iptr.Fits, Datum.Typed, exCtx]
  · intro it h; simp [exNew] at h; rcases h with h | h | h <;> subst h <;> rfl

/-- **C07 is violated for 8-byte alignment**: additional info of 12 bytes aligned to 8 (timetz). The space check passes
for the new item, yet re-encoding the old items behind it makes the page 4 bytes longer than its capacity (the items
behind lose their alignment). -/
theorem C07_overfilled_align8 :
    let c : Cfg := ⟨false, some ⟨false, 12, 8, true⟩⟩
    let d : Datum := .fixedRef (List.replicate 12 7)
    let a : List (Item Datum) := [⟨⟨200, 1⟩, none⟩]
    let n : Item Datum := ⟨⟨200 + 2 ^ 21, 64⟩, some d⟩
    let b : List (Item Datum) := [⟨⟨200 + 2 ^ 22, 1⟩, none⟩, ⟨⟨200 + 2 ^ 22, 2⟩, none⟩, ⟨⟨200 + 2 ^ 23, 64⟩, some d⟩]
    let cap := checkList c ⟨0, 0⟩ 0 (a ++ b) + (checkPlace c n ⟨0, 0⟩ 0 + 8)
    checkList c ⟨0, 0⟩ 0 (a ++ n :: b) = cap + 4 := by
  simp [checkList, checkPlace, sizeIptr, sizeBlk, sizeOff, computeSize, alignUp]

end Rum.Props
