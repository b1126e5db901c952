import Verif.LeafPageLemmas
/-
Property theorem C06: the directory of a posting-tree leaf page never hides an item.
-/
namespace Rum.Props
open Rum Rum.Codec Rum.Leaf Std

theorem minItem_lt (x : Ctx) (key : Item Datum) (h : 1 ≤ key.iptr.off) : x.cmp minItem key = .lt := by
  have h1 : cmpIptr ⟨0, 0⟩ key.iptr = .lt := by
    unfold cmpIptr
    split
    · rw [if_neg (by simp; omega), if_neg (by simp)]
    · rw [if_neg (by simp)]
  unfold Ctx.cmp cmpItem minItem
  cases (x.cfg.alt && x.isAddTo) with
  | false => simpa using h1
  | true =>
    simp only [if_true]
    cases key.info with
    | none => exact h1
    | some _ => rfl

theorem lessCount_eq_filter (x : Ctx) [TransCmp x.cmpV] (key : Item Datum) (its : List (Item Datum))
    (hs : SSorted x.cmp its) :
    lessCount x key its = (its.filter (fun it => x.cmp it key == .lt)).length := by
  have : TransCmp x.cmp := cmpItem_trans _ _
  induction its with
  | nil => rfl
  | cons a l ih =>
    unfold SSorted at hs ih
    rw [List.pairwise_cons] at hs
    unfold lessCount at ih ⊢
    by_cases ha : x.cmp a key = .lt
    · simp only [ha, beq_self_eq_true, List.takeWhile_cons_of_pos, List.filter_cons_of_pos, List.length_cons]
      rw [ih hs.2]
    · have h0 : l.filter (fun it => x.cmp it key == .lt) = [] := by
        rw [List.filter_eq_nil_iff]
        intro b hb hlt
        exact ha (TransCmp.lt_trans (hs.1 b hb) (by simpa using hlt))
      have e1 : (List.takeWhile (fun it => x.cmp it key == .lt) (a :: l)) = [] :=
        List.takeWhile_cons_of_neg (by simpa using ha)
      have e2 : (List.filter (fun it => x.cmp it key == .lt) (a :: l)) = [] := by
        rw [List.filter_cons_of_neg (by simpa using ha), h0]
      rw [e1, e2]

/-- **C06.** For every strictly sorted list of storable items (any length), encoding it and building the page
directory succeeds within the 32 slots, and for every search item with a valid offset number the lookup through the
directory answers: found exactly when an equal item is on the page; the reported position is one more than the number
of smaller items; and reading on from the reported byte position delivers exactly the items from that position to
the end of the page. -/
theorem C06_directory_lookup_exact (x : Ctx) [TransCmp x.cmpV] (its : List (Item Datum)) (key : Item Datum)
    (hok : ∀ it ∈ its, ItemOK x.cfg it) (hst : ∀ it ∈ its, it.stored x.cfg = it)
    (hs : SSorted x.cmp its) (hkey : 1 ≤ key.iptr.off) :
    ∃ page, buildPage x.cfg its = some page ∧ page.index.length = 32 ∧
      ∃ f, findInLeafPage x page key = some f ∧
        (f.found = true ↔ ∃ it ∈ its, x.cmp it key = .eq) ∧
        f.offset = (its.filter (fun it => x.cmp it key == .lt)).length + 1 ∧
        ∀ rest, readList x.cfg f.ptr f.iptr (its.length + 1 - f.offset) (page.data.drop f.ptr ++ rest) =
          some (its.filter (fun it => x.cmp it key != .lt), rest) := by
  have htr : TransCmp x.cmp := cmpItem_trans _ _
  obtain ⟨data, hd, hdl⟩ := placeList_ok x.cfg its 0 ⟨0, 0⟩ hok
  obtain ⟨idx, hi1, hi2, hi3⟩ := updateItemIndexes_ok x.cfg its data hok hst hd
  obtain ⟨f, hf1, hf2, hf3, hf4, hf5⟩ :=
    findInLeafPage_ok x its data idx key hok hst hd hs hi3 (minItem_lt x key hkey)
  have hlc := lessCount_eq_filter x key its hs
  refine ⟨⟨data, its.length, idx⟩, by simp [buildPage, hd, hi1], hi2, f, hf1, ?_, by rw [hf2, hlc], ?_⟩
  · rw [hf5]
    constructor
    · rintro ⟨h, h'⟩; exact ⟨_, List.getElem_mem h, h'⟩
    · rintro ⟨it, hit, he⟩
      obtain ⟨i, hi, rfl⟩ := List.getElem_of_mem hit
      have hle : lessCount x key its ≤ i := by
        apply Nat.le_of_not_lt
        intro hlt
        have := lessCount_lt x key its i hi hlt
        rw [this] at he; simp at he
      have hlt' : lessCount x key its < its.length := by omega
      refine ⟨hlt', ?_⟩
      by_cases heq : lessCount x key its = i
      · simp only [heq]; exact he
      · have h1 := List.pairwise_iff_getElem.1 hs (lessCount x key its) i hlt' hi (by omega)
        have h2 := TransCmp.lt_of_lt_of_eq h1 he
        exact absurd h2 (lessCount_at x key its hlt')
  · intro rest
    generalize hk : lessCount x key its = k at *
    have hkl : k ≤ its.length := by rw [← hk]; exact lessCount_le x key its
    have hdrop : its.filter (fun it => x.cmp it key != .lt) = its.drop k := by
      have htw : ∀ l : List (Item Datum), SSorted x.cmp l →
          l.filter (fun it => x.cmp it key != .lt) = l.drop (lessCount x key l) := by
        intro l
        induction l with
        | nil => intro _; rfl
        | cons a l ih =>
          intro hs'
          unfold SSorted at hs'
          rw [List.pairwise_cons] at hs'
          by_cases ha : x.cmp a key = .lt
          · have e : lessCount x key (a :: l) = lessCount x key l + 1 := by simp [lessCount, ha]
            rw [e, List.drop_succ_cons, ← ih hs'.2, List.filter_cons_of_neg (by simp [ha])]
          · have e : lessCount x key (a :: l) = 0 := by simp [lessCount, ha]
            rw [e, List.drop_zero, List.filter_eq_self]
            intro b hb
            rcases List.mem_cons.1 hb with rfl | hb
            · simpa using ha
            · simp only [bne_iff_ne, ne_eq]
              intro hlt
              exact ha (TransCmp.lt_trans (hs'.1 b hb) hlt)
      rw [htw its hs, hk]
    rw [hdrop]
    have hsplit : its = its.take k ++ its.drop k := by simp
    have hd' := hd
    rw [hsplit] at hd'
    obtain ⟨b1, b2, h1, h2, h3⟩ := placeList_append x.cfg _ _ _ _ _ hd'
    obtain ⟨y, hy1, hy2⟩ := placeList_ok x.cfg (its.take k) 0 ⟨0, 0⟩ (fun a ha => hok a (List.mem_of_mem_take ha))
    rw [h1] at hy1
    simp only [Option.some.injEq] at hy1
    subst hy1
    have hptr : f.ptr = b1.length := by rw [hf3]; unfold posOf; omega
    have hdd : data.drop f.ptr = b2 := by rw [hptr, h3]; simp
    have hlen : its.length + 1 - f.offset = (its.drop k).length := by rw [hf2]; simp
    have hrl := readList_placeList x.cfg (its.drop k) (0 + b1.length) _ b2 rest
      (fun a ha => hok a (List.mem_of_mem_drop ha))
      (lastIptr_fits x.cfg (its.take k) ⟨0, 0⟩ (by decide) (fun a ha => hok a (List.mem_of_mem_take ha))) h2
    have hmap : (its.drop k).map (Item.stored x.cfg) = its.drop k := by
      conv => rhs; rw [← List.map_id (its.drop k)]
      apply List.map_congr_left
      intro a ha
      exact hst a (List.mem_of_mem_drop ha)
    rw [hmap] at hrl
    rw [hlen]
    show readList x.cfg f.ptr f.iptr _ (data.drop f.ptr ++ rest) = _
    rw [hdd, hptr]
    cases ha : x.cfg.alt with
    | false => rw [hf4 ha]; simpa using hrl
    | true =>
      have hprev : ∀ n p q off bs, readList x.cfg off p n bs = readList x.cfg off q n bs := by
        intro n p q off bs
        cases n with
        | zero => rfl
        | succ n => simp only [readList]; rw [readItem_alt_prev x.cfg ha off p q]
      rw [hprev _ f.iptr (lastIptr ⟨0, 0⟩ (its.take k))]
      simpa using hrl

-- non-vacuity: 40 items (more than the 32 slots), by-value additional info, every hypothesis met
example : let x : Ctx := ⟨⟨false, some ⟨true, 4, 4, true⟩⟩, false, fun _ _ => .eq⟩
    let its : List (Item Datum) := (List.range 40).map (fun i => ⟨⟨3 * i, 7⟩, some (.byval i)⟩)
    (∀ it ∈ its, ItemOK x.cfg it) ∧ (∀ it ∈ its, it.stored x.cfg = it) ∧ SSorted x.cmp its ∧
      1 ≤ (⟨⟨30, 7⟩, none⟩ : Item Datum).iptr.off := by
  refine ⟨?_, ?_, by decide, by decide⟩
  · intro it hit
    simp only [List.mem_map, List.mem_range] at hit
    obtain ⟨i, hi, rfl⟩ := hit
    simp [ItemOK, Iptr.Fits, Datum.Typed]; omega
  · intro it hit
    simp only [List.mem_map, List.mem_range] at hit
    obtain ⟨i, hi, rfl⟩ := hit
    rfl

end Rum.Props
