import Verif.SplitLemmas
import Verif.Props.DataPage
/-
Property theorems C08 (splitting a leaf page).
-/
namespace Rum.Props
open Rum Rum.Codec Rum.Leaf Std

/-- The list a split distributes, and the facts about it. -/
theorem split_facts (x : Ctx) [TransCmp x.cmpV] (cap : Nat) (p : Page) (old : List (Item Datum)) (hp : Holds x p old)
    (n : Item Datum) (ns : List (Item Datum)) (hb : Batch x (n :: ns)) (f : Found) (hf : findInLeafPage x p n = some f)
    (hnew : f.found = false) (hbig : 32 ≤ p.data.length) (hpad : padOf x.cfg ∣ 8) :
    ∃ j k total, f.offset = j + 1 ∧ j ≤ old.length ∧ k ≤ (n :: ns).length ∧
      splitSizes x.cfg cap old f.offset (n :: ns) = (k, total) ∧
      (j < old.length → k = 1) ∧
      SSorted x.cmp (old.take j ++ (n :: ns).take k ++ old.drop j) ∧
      total / 2 < checkList x.cfg ⟨0, 0⟩ 0 (old.take j ++ (n :: ns).take k ++ old.drop j) ∧
      total ≤ checkList x.cfg ⟨0, 0⟩ 0 (old.take j ++ (n :: ns).take k ++ old.drop j) + 8 ∧
      p.data.length ≤ total := by
  have htr : TransCmp x.cmp := cmpItem_trans _ _
  obtain ⟨f', j, hf', hj, hoff, hlow, hhigh, -, -, -⟩ := locate x p old hp n (hb.valid n (by simp))
  rw [hf] at hf'
  simp only [Option.some.injEq] at hf'
  subst hf'
  obtain ⟨hd, hm, hdir, hlen⟩ := hp.facts
  -- the item at the position is greater
  have hne : ∀ it ∈ old, x.cmp it n ≠ .eq := by
    obtain ⟨pg, hpg, _, g, hg, hfound, -, -⟩ := C06_directory_lookup_exact x old n hp.ok hp.stored hp.sorted (hb.valid n (by simp))
    rw [hp.built, Option.some.injEq] at hpg
    subst hpg
    rw [hf, Option.some.injEq] at hg
    subst hg
    intro it hit he
    have := hfound.2 ⟨it, hit, he⟩
    rw [hnew] at this; cases this
  have hlow' : ∀ o ∈ old.take j, x.cmp o n = .lt := by
    intro o ho
    obtain ⟨i, hi, rfl⟩ := List.getElem_of_mem ho
    simp only [List.length_take] at hi
    rw [List.getElem_take]
    exact hlow i (by omega) (by omega)
  have hold : SSorted x.cmp (old.take j ++ old.drop j) := by rw [List.take_append_drop]; exact hp.sorted
  have hold' := List.pairwise_append.1 hold
  have hhigh' : ∀ o ∈ old.drop j, x.cmp n o = .lt := by
    intro o ho
    obtain ⟨i, hi, rfl⟩ := List.getElem_of_mem ho
    simp only [List.length_drop] at hi
    rw [List.getElem_drop]
    have h0 : x.cmp n old[j] = .lt := by
      have h1 := hhigh (by omega)
      have h2 := hne old[j] (List.getElem_mem (by omega))
      cases hc : x.cmp old[j] n with
      | lt => exact absurd hc h1
      | eq => exact absurd hc h2
      | gt => exact OrientedCmp.lt_of_gt hc
    by_cases hi0 : i = 0
    · subst hi0; simpa using h0
    · exact TransCmp.lt_trans h0 (List.pairwise_iff_getElem.1 hp.sorted j (j + i) (by omega) (by omega) (by omega))
  have hbs := List.pairwise_cons.1 hb.sorted
  by_cases hjl : j < old.length
  · refine ⟨j, 1, sizeInsert x.cfg (old.take j) n (old.drop j), hoff, hj, by simp, ?_, fun _ => rfl, ?_, ?_, ?_, ?_⟩
    · rw [splitSizes, if_pos (by omega), hoff, Nat.add_sub_cancel]
    · simp only [List.take_succ_cons, List.take_zero]
      rw [List.append_assoc]
      refine List.pairwise_append.2 ⟨hold'.1, List.pairwise_cons.2 ⟨hhigh', hold'.2.1⟩, fun a ha b hb' => ?_⟩
      rcases List.mem_cons.1 hb' with rfl | hb'
      · exact hlow' a ha
      · exact hold'.2.2 a ha b hb'
    all_goals
      have hblk : x.cfg.alt = false → BlkSorted (lastIptr ⟨0, 0⟩ (old.take j)).blk (old.drop j) := by
        intro ha
        have h1 := blkSorted_of x ha _ hold
        have h2 := (blkSorted_append _ _ _ h1).2
        rw [lastIptr_getLast]
        cases hg : (old.take j).getLast? with
        | none => rw [hg] at h2; exact h2
        | some o => rw [hg] at h2; exact h2
      have hdrop : ∀ it ∈ old.drop j, ItemOK x.cfg it := fun it h => hp.ok it (List.mem_of_mem_drop h)
      have g1 := sizeInsert_le x.cfg (old.take j) (old.drop j) n hdrop (fun ha => ⟨_, hblk ha⟩) hpad
      have g2 := sizeInsert_ge x.cfg (old.take j) (old.drop j) n (hb.ok n (by simp)) hdrop hblk
      rw [List.take_append_drop, ← hlen] at g2
      try simp only [List.take_succ_cons, List.take_zero, List.append_assoc, List.cons_append, List.nil_append]
      omega
  · have hjl : j = old.length := by omega
    subst hjl
    have e1 := appendLoop_total x.cfg cap (n :: ns) (lastIptr ⟨0, 0⟩ old) (sizeLoop x.cfg ⟨0, 0⟩ 0 0 old).1 (sizeLoop x.cfg ⟨0, 0⟩ 0 0 old).2
    have e0 : splitSizes x.cfg cap old f.offset (n :: ns) =
        appendLoop x.cfg cap (lastIptr ⟨0, 0⟩ old) (sizeLoop x.cfg ⟨0, 0⟩ 0 0 old).1 (sizeLoop x.cfg ⟨0, 0⟩ 0 0 old).2 (n :: ns) := by
      rw [splitSizes, if_neg (by omega)]
    rw [← e0] at e1
    generalize hs : splitSizes x.cfg cap old f.offset (n :: ns) = kt at *
    obtain ⟨k, total⟩ := kt
    simp only [sizeLoop_fst] at e1
    have htot : checkList x.cfg ⟨0, 0⟩ 0 (old ++ (n :: ns).take k) = total := by rw [checkList_append]; exact e1.2.symm
    have hge : p.data.length ≤ total := by
      rw [e1.2, hlen]
      exact checkList_ge _ _ _ _ (fun it hit => hb.ok it (List.mem_of_mem_take hit))
    simp only [List.take_length] at hlow'
    refine ⟨old.length, k, total, hoff, Nat.le_refl _, e1.1, rfl, fun h => by omega, ?_, ?_, ?_, hge⟩
    · simp only [List.take_length, List.drop_length, List.append_nil]
      refine List.pairwise_append.2 ⟨hp.sorted, hb.sorted.sublist (List.take_sublist _ _), fun a ha b hb' => ?_⟩
      have l1 := hlow' a ha
      rcases List.mem_cons.1 (List.mem_of_mem_take hb') with rfl | hb'
      · exact l1
      · exact TransCmp.lt_trans l1 (hbs.1 b hb')
    · simp only [List.take_length, List.drop_length, List.append_nil, htot]; omega
    · simp only [List.take_length, List.drop_length, List.append_nil, htot]; omega

/-- The split in terms of the lists: where it cuts. -/
theorem split_core (x : Ctx) [TransCmp x.cmpV] (cap : Nat) (p : Page) (old : List (Item Datum)) (hp : Holds x p old)
    (n : Item Datum) (ns : List (Item Datum)) (hb : Batch x (n :: ns)) (f : Found) (hf : findInLeafPage x p n = some f)
    (hnew : f.found = false) (hbig : 32 ≤ p.data.length) (hpad : padOf x.cfg ∣ 8) :
    ∃ j k total a z b s, f.offset = j + 1 ∧ j ≤ old.length ∧ k ≤ (n :: ns).length ∧
      splitSizes x.cfg cap old f.offset (n :: ns) = (k, total) ∧ (j < old.length → k = 1) ∧
      old.take j ++ (n :: ns).take k ++ old.drop j = a ++ z :: b ∧
      SSorted x.cmp (a ++ z :: b) ∧
      splitLeaf x.cfg cap old f.offset (n :: ns) = some s ∧ s.leftItems = a ++ [z] ∧ s.rightItems = b ∧ s.bound = z ∧
      s.rest = (n :: ns).drop k ∧ Holds x s.left (a ++ [z]) ∧ Holds x s.right b ∧
      checkList x.cfg ⟨0, 0⟩ 0 a ≤ total / 2 ∧ total / 2 < checkList x.cfg ⟨0, 0⟩ 0 (a ++ [z]) ∧
      total ≤ checkList x.cfg ⟨0, 0⟩ 0 (a ++ z :: b) + 8 ∧ p.data.length ≤ total := by
  obtain ⟨j, k, total, h1, h2, h3, h4, h5, h6, h7, h8, h9⟩ := split_facts x cap p old hp n ns hb f hf hnew hbig hpad
  have hok : ∀ it ∈ old.take j ++ (n :: ns).take k ++ old.drop j, ItemOK x.cfg it ∧ it.stored x.cfg = it := by
    intro it hit
    simp only [List.mem_append] at hit
    rcases hit with (h | h) | h
    · exact ⟨hp.ok it (List.mem_of_mem_take h), hp.stored it (List.mem_of_mem_take h)⟩
    · exact ⟨hb.ok it (List.mem_of_mem_take h), hb.stored it (List.mem_of_mem_take h)⟩
    · exact ⟨hp.ok it (List.mem_of_mem_drop h), hp.stored it (List.mem_of_mem_drop h)⟩
  obtain ⟨a, z, b, bl, br, e, g1, g2, g3, g4, g5⟩ := splitLoop_ok x.cfg total _ [] [] (fun _ h => by simp at h)
    (fun it hit => (hok it hit).1) rfl (by simp [checkList]) (by simpa using h7)
  simp only [List.nil_append, lastIptr] at g1 g2 g4 g5
  rw [e] at h6 h7 h8 hok
  have okl : ∀ it ∈ a ++ [z], ItemOK x.cfg it ∧ it.stored x.cfg = it := fun it hit => hok it (by
    simp only [List.mem_append, List.mem_cons, List.not_mem_nil, or_false] at hit ⊢; tauto)
  have okr : ∀ it ∈ b, ItemOK x.cfg it ∧ it.stored x.cfg = it := fun it hit => hok it (by simp [hit])
  obtain ⟨il, hil, -, -⟩ := updateItemIndexes_ok x.cfg (a ++ [z]) bl (fun it h => (okl it h).1) (fun it h => (okl it h).2) g2
  obtain ⟨ir, hir, -, -⟩ := updateItemIndexes_ok x.cfg b br (fun it h => (okr it h).1) (fun it h => (okr it h).2) g3
  have hs1 : SSorted x.cmp (a ++ [z]) := h6.sublist (by simp)
  have hs2 : SSorted x.cmp b := h6.sublist ((List.sublist_cons_self z b).trans (List.sublist_append_right a _))
  have heq : splitLeaf x.cfg cap old f.offset (n :: ns) =
      some ⟨⟨bl, (a ++ [z]).length, il⟩, ⟨br, b.length, ir⟩, a ++ [z], b, z, (n :: ns).drop k⟩ := by
    have hj1 : f.offset - 1 = j := by omega
    simp only [splitLeaf, h4, hj1, g1, hil, hir, List.getLast?_append, List.getLast?_singleton, Option.some_or]
  exact ⟨j, k, total, a, z, b, _, h1, h2, h3, h4, h5, e, h6, heq, rfl, rfl, rfl, rfl,
    holds_of (fun it h => (okl it h).1) (fun it h => (okl it h).2) hs1 g2 hil,
    holds_of (fun it h => (okr it h).1) (fun it h => (okr it h).2) hs2 g3 hir, g4, g5, h8, h9⟩

/-- **C08.** Splitting a leaf page (of at least 32 bytes of items: a split happens on a full page) while adding a sorted
batch whose first item is new to the page: the two resulting pages together hold exactly the old items and the consumed
front part of the batch, strictly sorted; the recorded bound is the greatest item of the left page, every item on the
right is greater; what is reported as not placed is exactly the rest of the batch. -/
theorem C08_split_exact (x : Ctx) [TransCmp x.cmpV] (cap : Nat) (p : Page) (old items : List (Item Datum))
    (hp : Holds x p old) (hb : Batch x items) (hne : items ≠ []) (f : Found)
    (hf : findInLeafPage x p (items.head hne) = some f) (hnew : f.found = false) (hbig : 32 ≤ p.data.length)
    (hpad : padOf x.cfg ∣ 8) :
    ∃ s k, splitLeaf x.cfg cap old f.offset items = some s ∧ k ≤ items.length ∧ s.rest = items.drop k ∧
      Holds x s.left s.leftItems ∧ Holds x s.right s.rightItems ∧
      SSorted x.cmp (s.leftItems ++ s.rightItems) ∧
      (∀ it, it ∈ s.leftItems ++ s.rightItems ↔ it ∈ old ∨ it ∈ items.take k) ∧
      s.leftItems.getLast? = some s.bound ∧ (∀ it ∈ s.leftItems, x.cmp it s.bound ≠ .gt) ∧
      (∀ it ∈ s.rightItems, x.cmp s.bound it = .lt) := by
  have htr : TransCmp x.cmp := cmpItem_trans _ _
  cases items with
  | nil => exact absurd rfl hne
  | cons n ns =>
  obtain ⟨j, k, total, a, z, b, s, h1, h2, h3, h4, h5, e, hso, hs, hl, hr, hz, hrest, Hl, Hr, -⟩ :=
    split_core x cap p old hp n ns hb f hf hnew hbig hpad
  have hso' := List.pairwise_append.1 hso
  refine ⟨s, k, hs, h3, hrest, by rw [hl]; exact Hl, by rw [hr]; exact Hr, ?_, ?_, ?_, ?_, ?_⟩
  · rw [hl, hr]; simpa using hso
  · intro it
    rw [hl, hr, List.append_assoc, List.singleton_append, ← e]
    simp only [List.mem_append]
    conv => rhs; rw [← List.take_append_drop j old]
    simp only [List.mem_append]
    tauto
  · rw [hl, hz]; simp
  · rw [hl, hz]
    intro it hit
    rcases List.mem_append.1 hit with h | h
    · rw [hso'.2.2 it h z (by simp)]; decide
    · simp at h; subst h; rw [ReflCmp.compare_self (cmp := x.cmp)]; decide
  · rw [hr, hz]
    exact (List.pairwise_cons.1 hso'.2.1).1

/-- **C08, the old right bound, partial**: if every consumed item is within the old right bound, so is the right page.
What is missing: nothing makes sure that the consumed items are within the bound, see C08_right_bound_violated. -/
theorem C08_right_bound_partial (x : Ctx) [TransCmp x.cmpV] (cap : Nat) (p : Page) (old items : List (Item Datum))
    (hp : Holds x p old) (hb : Batch x items) (hne : items ≠ []) (f : Found)
    (hf : findInLeafPage x p (items.head hne) = some f) (hnew : f.found = false) (hbig : 32 ≤ p.data.length)
    (hpad : padOf x.cfg ∣ 8) (bound : Item Datum) (hold : ∀ it ∈ old, x.cmp it bound ≠ .gt) (s : Split)
    (hs : splitLeaf x.cfg cap old f.offset items = some s)
    (hin : f.offset ≤ old.length ∧ x.cmp (items.head hne) bound ≠ .gt ∨ ∀ it ∈ items, it ∉ s.rest → x.cmp it bound ≠ .gt) :
    ∀ it ∈ s.leftItems ++ s.rightItems, x.cmp it bound ≠ .gt := by
  have htr : TransCmp x.cmp := cmpItem_trans _ _
  cases items with
  | nil => exact absurd rfl hne
  | cons n ns =>
  obtain ⟨j, k, total, a, z, b, s', h1, h2, h3, h4, h5, e, hso, hs', hl, hr, hz, hrest, -⟩ :=
    split_core x cap p old hp n ns hb f hf hnew hbig hpad
  rw [hs, Option.some.injEq] at hs'
  subst hs'
  intro it hit
  rw [hl, hr, List.append_assoc, List.singleton_append, ← e] at hit
  simp only [List.mem_append] at hit
  rcases hit with (h | h) | h
  · exact hold it (List.mem_of_mem_take h)
  · rcases hin with ⟨hoff, hle⟩ | hin
    · rw [h5 (by omega)] at h
      simp at h; subst h; exact hle
    · apply hin it (List.mem_of_mem_take h)
      rw [hrest]
      intro hd
      have hbs := hb.sorted
      rw [← List.take_append_drop k (n :: ns)] at hbs
      have := (List.pairwise_append.1 hbs).2.2 it h it hd
      rw [ReflCmp.compare_self (cmp := x.cmp)] at this; cases this
  · exact hold it (List.mem_of_mem_drop h)

/-- **C08, both pages fit**: for additional info that needs no padding (see C07_never_overfilled), when every item alone takes at most a third of a
page (less 11 bytes), both pages of the split fit, at least one new item is consumed, and if the split was needed (no
room for the item) the right page is not empty. -/
theorem C08_fits (x : Ctx) [TransCmp x.cmpV] (cap M : Nat) (p : Page) (old items : List (Item Datum))
    (hp : Holds x p old) (hb : Batch x items) (hne : items ≠ []) (f : Found)
    (hf : findInLeafPage x p (items.head hne) = some f) (hnew : f.found = false) (hbig : 32 ≤ p.data.length)
    (h8 : padOf x.cfg ∣ 8) (hpad : ∀ it ∈ old ++ items, padItem x.cfg it = 1) (hcap : p.data.length ≤ cap) (hM : ∀ it ∈ old ++ items, checkPlace x.cfg it ⟨0, 0⟩ 0 ≤ M)
    (h3M : 3 * M + 32 ≤ cap) (s : Split) (hs : splitLeaf x.cfg cap old f.offset items = some s) :
    s.left.data.length ≤ cap ∧ s.right.data.length ≤ cap ∧ s.rest.length < items.length ∧
      (leafEnoughSpace x.cfg cap p (items.head hne) = false → s.rightItems ≠ []) := by
  have htr : TransCmp x.cmp := cmpItem_trans _ _
  cases items with
  | nil => exact absurd rfl hne
  | cons n ns =>
  obtain ⟨j, k, total, a, z, b, s', h1, h2, h3, h4, h5, e, hso, hs', hl, hr, hz, hrest, Hl, Hr, c1, c2, c3, c4⟩ :=
    split_core x cap p old hp n ns hb f hf hnew hbig h8
  rw [hs, Option.some.injEq] at hs'
  subst hs'
  obtain ⟨-, -, -, hlen⟩ := hp.facts
  obtain ⟨-, -, -, hll⟩ := Hl.facts
  obtain ⟨-, -, -, hrl⟩ := Hr.facts
  have hmem : ∀ it ∈ a ++ z :: b, it ∈ old ++ n :: ns := by
    intro it hit
    rw [← e] at hit
    simp only [List.mem_append] at hit ⊢
    rcases hit with (h | h) | h
    · exact Or.inl (List.mem_of_mem_take h)
    · exact Or.inr (List.mem_of_mem_take h)
    · exact Or.inl (List.mem_of_mem_drop h)
  have hok : ∀ it ∈ a ++ z :: b, ItemOK x.cfg it := by
    intro it hit
    rcases List.mem_append.1 (hmem it hit) with h | h
    · exact hp.ok it h
    · exact hb.ok it h
  have oka : ∀ it ∈ a, ItemOK x.cfg it := fun it h => hok it (by simp [h])
  have okz : ItemOK x.cfg z := hok z (by simp)
  have okb : ∀ it ∈ b, ItemOK x.cfg it := fun it h => hok it (by simp [h])
  have fz : Flat x.cfg z := ⟨okz, hpad z (hmem z (by simp))⟩
  have fb : ∀ it ∈ b, Flat x.cfg it := fun it h => ⟨okb it h, hpad it (hmem it (by simp [h]))⟩
  have fO : ∀ it ∈ old, Flat x.cfg it := fun it h => ⟨hp.ok it h, hpad it (by simp [h])⟩
  have fN : ∀ it ∈ n :: ns, Flat x.cfg it := fun it h => ⟨hb.ok it h, hpad it (List.mem_append_right _ h)⟩
  have hblk : x.cfg.alt = false → BlkSorted 0 (a ++ z :: b) := fun ha => blkSorted_of x ha _ hso
  -- sizes
  have szZ : checkList x.cfg ⟨0, 0⟩ 0 (a ++ [z]) = checkList x.cfg ⟨0, 0⟩ 0 a + checkPlace x.cfg z (lastIptr ⟨0, 0⟩ a) 0 := by
    rw [checkList_append]; simp only [checkList]
    exact checkPlace_add x.cfg z fz _ _
  have hzb : x.cfg.alt = false → (lastIptr ⟨0, 0⟩ a).blk ≤ z.iptr.blk := by
    intro ha
    have h2 := (blkSorted_append _ _ _ (hblk ha)).2
    rw [lastIptr_getLast]
    cases hg : a.getLast? with
    | none => exact Nat.zero_le _
    | some o => rw [hg] at h2; exact h2.1
  have zM : checkPlace x.cfg z (lastIptr ⟨0, 0⟩ a) 0 ≤ M :=
    Nat.le_trans (checkPlace_mono x.cfg z okz ⟨0, 0⟩ _ 0 0 (Nat.le_refl _) (fun ha => ⟨Nat.zero_le _, hzb ha⟩))
      (hM z (hmem z (by simp)))
  have szB : checkList x.cfg ⟨0, 0⟩ 0 (a ++ z :: b) = checkList x.cfg ⟨0, 0⟩ 0 (a ++ [z]) + checkList x.cfg z.iptr 0 b := by
    rw [show a ++ z :: b = (a ++ [z]) ++ b by simp, checkList_append, lastIptr_snoc]
    exact checkList_add x.cfg b fb _ _
  have szR : checkList x.cfg ⟨0, 0⟩ 0 b ≤ checkList x.cfg z.iptr 0 b + 4 := by
    cases hbe : b with
    | nil => simp [checkList]
    | cons y ys =>
      subst hbe
      simp only [checkList]
      have k1 := checkPlace_add x.cfg y (fb y (by simp)) ⟨0, 0⟩ 0
      rw [checkList_add x.cfg ys (fun w hw => fb w (by simp [hw])), checkList_add x.cfg ys (fun w hw => fb w (by simp [hw])) _ (checkPlace x.cfg y z.iptr 0)]
      have : checkPlace x.cfg y ⟨0, 0⟩ 0 ≤ checkPlace x.cfg y z.iptr 0 + 4 := by
        rw [checkPlace_eq, checkPlace_eq]
        have h4 := infoSize_shift x.cfg y (okb y (by simp)) 1 (0 + sizeIptr x.cfg.alt y.iptr z.iptr) 4 ((fb y (by simp)).dvd _)
        rw [show 1 * 4 = 4 from rfl] at h4
        rw [← h4]
        apply infoSize_mono
        have := sizeIptr_near x.cfg y.iptr ⟨0, 0⟩ z.iptr
        omega
      omega
  have hzpos := checkPlace_gt x.cfg z okz (lastIptr ⟨0, 0⟩ a) 0
  have hnM : checkPlace x.cfg n ⟨0, 0⟩ 0 ≤ M := hM n (by simp)
  -- total against cap
  have hk : 1 ≤ k ∧ (total ≤ cap + M ∨ ∃ m, total + 2 * m + 16 < 2 * cap ∧ (b ≠ [] → checkPlace x.cfg z (lastIptr ⟨0, 0⟩ a) 0 ≤ m)) ∧
      checkList x.cfg ⟨0, 0⟩ 0 (a ++ z :: b) ≤ total := by
    by_cases hjl : j < old.length
    · have hk1 := h5 hjl
      subst hk1
      have ht : total = sizeInsert x.cfg (old.take j) n (old.drop j) := by
        rw [splitSizes, if_pos (by omega), h1, Nat.add_sub_cancel] at h4
        simp only [Prod.mk.injEq] at h4
        exact h4.2.symm
      simp only [sizeInsert, sizeLoop_fst] at ht
      have okd : ∀ it ∈ old.drop j, ItemOK x.cfg it := fun it h => hp.ok it (List.mem_of_mem_drop h)
      have fd : ∀ it ∈ old.drop j, Flat x.cfg it := fun it h => fO it (List.mem_of_mem_drop h)
      have hsum : checkList x.cfg ⟨0, 0⟩ 0 old = checkList x.cfg ⟨0, 0⟩ 0 (old.take j) +
          checkList x.cfg (lastIptr ⟨0, 0⟩ (old.take j)) 0 (old.drop j) := by
        conv => lhs; rw [← List.take_append_drop j old]
        rw [checkList_append]
        exact checkList_add x.cfg _ fd _ _
      rw [checkList_add x.cfg _ fd, checkPlace_add x.cfg n (fN n (by simp))] at ht
      have hall : old.take j ++ n :: old.drop j = a ++ z :: b := by
        simpa using e
      have hbl2 : x.cfg.alt = false → BlkSorted 0 (old.take j ++ n :: old.drop j) := fun ha => by rw [hall]; exact hblk ha
      have hnb : x.cfg.alt = false → (lastIptr ⟨0, 0⟩ (old.take j)).blk ≤ n.iptr.blk ∧ BlkSorted n.iptr.blk (old.drop j) := by
        intro ha
        have h2 := (blkSorted_append _ _ _ (hbl2 ha)).2
        rw [lastIptr_getLast]
        cases hg : (old.take j).getLast? with
        | none => exact ⟨Nat.zero_le _, h2.2⟩
        | some o => rw [hg] at h2; exact ⟨h2.1, h2.2⟩
      have hn0 : checkPlace x.cfg n (lastIptr ⟨0, 0⟩ (old.take j)) 0 ≤ checkPlace x.cfg n ⟨0, 0⟩ 0 :=
        checkPlace_mono x.cfg n (hb.ok n (by simp)) ⟨0, 0⟩ _ 0 0 (Nat.le_refl _) (fun ha => ⟨Nat.zero_le _, (hnb ha).1⟩)
      refine ⟨Nat.le_refl _, Or.inl (by omega), ?_⟩
      rw [← hall, checkList_append]
      simp only [checkList]
      rw [checkList_add x.cfg _ fd, checkPlace_add x.cfg n (fN n (by simp))]
      have := checkList_mono x.cfg (old.drop j) (lastIptr ⟨0, 0⟩ (old.take j)) n.iptr 0 0 okd (Nat.le_refl _) hnb
      omega
    · have hjl : j = old.length := by omega
      subst hjl
      rw [splitSizes, if_neg (by omega)] at h4
      simp only [List.take_length, List.drop_length, List.append_nil] at e
      have hk1 : 1 ≤ k := by
        simp only [appendLoop] at h4
        have hnz : checkPlace x.cfg n (lastIptr ⟨0, 0⟩ old) (sizeLoop x.cfg ⟨0, 0⟩ 0 0 old).1 + 2 * (sizeLoop x.cfg ⟨0, 0⟩ 0 0 old).2 + 16 < 2 * cap := by
          rw [sizeLoop_fst, checkPlace_add x.cfg n (fN n (by simp)), ← hlen]
          have hlb : x.cfg.alt = false → (lastIptr ⟨0, 0⟩ old).blk ≤ n.iptr.blk := by
            intro ha
            rw [lastIptr_getLast]
            cases hg : old.getLast? with
            | none => exact Nat.zero_le _
            | some o =>
              obtain ⟨f', j', hf', hj', hoff', hlow', -⟩ := locate x p old hp n (hb.valid n (by simp))
              have : f' = f := by
                have h0 : findInLeafPage x p n = some f := hf
                rw [hf', Option.some.injEq] at h0; exact h0
              rw [this] at hoff'
              obtain ⟨i, hi, hio⟩ := List.getElem_of_mem (List.mem_of_getLast? hg)
              have := hlow' i hi (by omega)
              rw [hio] at this
              exact blk_le_of_lt x ha o n (by rw [this]; decide)
          have g1 : checkPlace x.cfg n (lastIptr ⟨0, 0⟩ old) 0 ≤ M :=
            Nat.le_trans (checkPlace_mono x.cfg n (hb.ok n (by simp)) ⟨0, 0⟩ _ 0 0 (Nat.le_refl _) (fun ha => ⟨Nat.zero_le _, hlb ha⟩)) hnM
          have g2 : (sizeLoop x.cfg ⟨0, 0⟩ 0 0 old).2 ≤ M := by
            have gen : ∀ (l : List (Item Datum)) prev t m, (∀ it ∈ l, Flat x.cfg it) → (x.cfg.alt = false → BlkSorted prev.blk l) →
                (∀ it ∈ l, checkPlace x.cfg it ⟨0, 0⟩ 0 ≤ M) → m ≤ M → (sizeLoop x.cfg prev t m l).2 ≤ M := by
              intro l
              induction l with
              | nil => intro _ _ _ _ _ _ h; exact h
              | cons y l ih =>
                intro prev t m h1 h2 h3 h4
                simp only [sizeLoop]
                refine ih _ _ _ (fun w hw => h1 w (by simp [hw])) (fun ha => (h2 ha).2) (fun w hw => h3 w (by simp [hw])) ?_
                have q1 := checkPlace_add x.cfg y (h1 y (by simp)) prev t
                have q2 := checkPlace_mono x.cfg y (h1 y (by simp)).ok ⟨0, 0⟩ prev 0 0 (Nat.le_refl _) (fun ha => ⟨Nat.zero_le _, (h2 ha).1⟩)
                have q3 := h3 y (by simp)
                omega
            exact gen old ⟨0, 0⟩ 0 0 fO (fun ha => blkSorted_of x ha _ hp.sorted) (fun it h => hM it (by simp [h])) (Nat.zero_le _)
          omega
        simp only [hnz, if_true, Prod.mk.injEq] at h4
        omega
      refine ⟨hk1, Or.inr ?_, ?_⟩
      · obtain ⟨m, m1, m2, m3⟩ := appendLoop_room x.cfg cap (n :: ns) (lastIptr ⟨0, 0⟩ old) (sizeLoop x.cfg ⟨0, 0⟩ 0 0 old).1
          (sizeLoop x.cfg ⟨0, 0⟩ 0 0 old).2 fN (by rw [h4]; exact hk1)
        rw [h4] at m2 m3
        refine ⟨m, m2, fun hbne => ?_⟩
        rcases List.append_eq_append_iff.1 e with ⟨w, hw1, hw2⟩ | ⟨w, hw1, hw2⟩
        · -- z is a new item
          rw [hw1, lastIptr_append]
          exact m3 w z b hw2 hbne
        · cases w with
          | nil =>
            simp only [List.append_nil, List.nil_append] at hw1 hw2
            subst hw1
            exact m3 [] z b hw2.symm hbne
          | cons z' w =>
            simp only [List.cons_append, List.cons.injEq] at hw2
            obtain ⟨rfl, -⟩ := hw2
            exact Nat.le_trans ((sizeLoop_max x.cfg old ⟨0, 0⟩ 0 0 fO).2 a z w hw1) m1
      · have := (appendLoop_total x.cfg cap (n :: ns) (lastIptr ⟨0, 0⟩ old) (sizeLoop x.cfg ⟨0, 0⟩ 0 0 old).1
          (sizeLoop x.cfg ⟨0, 0⟩ 0 0 old).2).2
        rw [h4] at this
        simp only [sizeLoop_fst] at this
        rw [← e, checkList_append, ← this]
        exact Nat.le_refl _
  obtain ⟨hk1, hk2, hk3⟩ := hk
  have hbnil : b = [] → checkList x.cfg z.iptr 0 b = 0 := by rintro rfl; rfl
  refine ⟨?_, ?_, ?_, ?_⟩
  · rw [hll, szZ]
    rcases hk2 with h | ⟨m, hm1, hm2⟩
    · omega
    · by_cases hbe : b = []
      · have := hbnil hbe
        omega
      · have := hm2 hbe
        omega
  · rw [hrl]
    rcases hk2 with h | ⟨m, hm1, hm2⟩ <;> omega
  · rw [hrest]; simp only [List.length_drop, List.length_cons] at h3 ⊢; omega
  · intro hfull hbe
    rw [hr] at hbe
    have := hbnil hbe
    have hfull' : ¬ (checkPlace x.cfg n ⟨0, 0⟩ 0 + 8 ≤ cap - p.data.length) := of_decide_eq_false hfull
    omega

/-- A size at some place against the size at the start. -/
theorem checkPlace_le8 (c : Cfg) (it : Item Datum) (hit : ItemOK c it) (h8 : padOf c ∣ 8) (prev : Iptr) (s : Nat) :
    checkPlace c it prev s ≤ s + 7 + checkPlace c it prev 0 := by
  have h1 := checkPlace_shift c it hit prev 8 0 ((s + 7) / 8) (padItem_dvd h8)
  have h2 : checkPlace c it prev s ≤ checkPlace c it prev (0 + 8 * ((s + 7) / 8)) := by
    rw [checkPlace_eq, checkPlace_eq]; apply infoSize_mono; omega
  omega

/-- The greatest size of the first loop of the split when every item is small. -/
theorem sizeLoop_small (c : Cfg) (h8 : padOf c ∣ 8) (M : Nat) (l : List (Item Datum)) : ∀ prev t m, (∀ it ∈ l, ItemOK c it) →
    (c.alt = false → BlkSorted prev.blk l) → (∀ it ∈ l, checkPlace c it ⟨0, 0⟩ 0 ≤ M) → m ≤ M + 7 → (sizeLoop c prev t m l).2 ≤ M + 7 := by
  induction l with
  | nil => intro _ _ _ _ _ _ h; exact h
  | cons y l ih =>
    intro prev t m h1 h2 h3 h4
    simp only [sizeLoop]
    refine ih _ _ _ (fun w hw => h1 w (by simp [hw])) (fun ha => (h2 ha).2) (fun w hw => h3 w (by simp [hw])) ?_
    have q1 := checkPlace_le8 c y (h1 y (by simp)) h8 prev t
    have q2 := checkPlace_mono c y (h1 y (by simp)) ⟨0, 0⟩ prev 0 0 (Nat.le_refl _) (fun ha => ⟨Nat.zero_le _, (h2 ha).1⟩)
    have q3 := h3 y (by simp)
    omega

/-- **C08, both pages fit, one item**: additional info with any padding (alignment dividing 4), for the split an insertion of a single item makes. -/
theorem C08_fits_single (x : Ctx) [TransCmp x.cmpV] (cap M : Nat) (p : Page) (old : List (Item Datum)) (n : Item Datum)
    (hp : Holds x p old) (hb : Batch x [n]) (f : Found)
    (hf : findInLeafPage x p n = some f) (hnew : f.found = false) (hbig : 32 ≤ p.data.length)
    (h4' : padOf x.cfg ∣ 4) (hcap : p.data.length ≤ cap) (hM : ∀ it ∈ old ++ [n], checkPlace x.cfg it ⟨0, 0⟩ 0 ≤ M)
    (h3M : 3 * M + 40 ≤ cap) (s : Split) (hs : splitLeaf x.cfg cap old f.offset [n] = some s) :
    s.left.data.length ≤ cap ∧ s.right.data.length ≤ cap ∧ s.rest = [] ∧
      (leafEnoughSpace x.cfg cap p n = false → s.rightItems ≠ []) := by
  have htr : TransCmp x.cmp := cmpItem_trans _ _
  have h8 : padOf x.cfg ∣ 8 := Nat.dvd_trans h4' (by decide)
  obtain ⟨j, k, total, a, z, b, s', h1, h2, h3, h4, h5, e, hso, hs', hl, hr, hz, hrest, Hl, Hr, c1, c2, c3, c4⟩ :=
    split_core x cap p old hp n [] hb f hf hnew hbig h8
  rw [hs, Option.some.injEq] at hs'
  subst hs'
  obtain ⟨-, -, -, hlen⟩ := hp.facts
  obtain ⟨-, -, -, hll⟩ := Hl.facts
  obtain ⟨-, -, -, hrl⟩ := Hr.facts
  have hmem : ∀ it ∈ a ++ z :: b, it ∈ old ++ [n] := by
    intro it hit
    rw [← e] at hit
    simp only [List.mem_append] at hit ⊢
    rcases hit with (h | h) | h
    · exact Or.inl (List.mem_of_mem_take h)
    · exact Or.inr (List.mem_of_mem_take h)
    · exact Or.inl (List.mem_of_mem_drop h)
  have hok : ∀ it ∈ a ++ z :: b, ItemOK x.cfg it := by
    intro it hit
    rcases List.mem_append.1 (hmem it hit) with h | h
    · exact hp.ok it h
    · exact hb.ok it h
  have okz : ItemOK x.cfg z := hok z (by simp)
  have okb : ∀ it ∈ b, ItemOK x.cfg it := fun it h => hok it (by simp [h])
  have okn : ItemOK x.cfg n := hb.ok n (by simp)
  have hnM : checkPlace x.cfg n ⟨0, 0⟩ 0 ≤ M := hM n (by simp)
  have hblk : x.cfg.alt = false → BlkSorted 0 (a ++ z :: b) := fun ha => blkSorted_of x ha _ hso
  have hzb : x.cfg.alt = false → (lastIptr ⟨0, 0⟩ a).blk ≤ z.iptr.blk ∧ BlkSorted z.iptr.blk b := by
    intro ha
    have h2 := (blkSorted_append _ _ _ (hblk ha)).2
    rw [lastIptr_getLast]
    cases hg : a.getLast? with
    | none => exact ⟨Nat.zero_le _, h2.2⟩
    | some o => rw [hg] at h2; exact ⟨h2.1, h2.2⟩
  -- the left page
  have szL : checkList x.cfg ⟨0, 0⟩ 0 (a ++ [z]) ≤ checkList x.cfg ⟨0, 0⟩ 0 a + 7 + M := by
    rw [checkList_append]; simp only [checkList]
    have q1 := checkPlace_le8 x.cfg z okz h8 (lastIptr ⟨0, 0⟩ a) (checkList x.cfg ⟨0, 0⟩ 0 a)
    have q2 := checkPlace_mono x.cfg z okz ⟨0, 0⟩ (lastIptr ⟨0, 0⟩ a) 0 0 (Nat.le_refl _) (fun ha => ⟨Nat.zero_le _, (hzb ha).1⟩)
    have q3 := hM z (hmem z (by simp))
    omega
  -- the right page
  have szR : checkList x.cfg ⟨0, 0⟩ 0 b + checkList x.cfg ⟨0, 0⟩ 0 (a ++ [z]) ≤ checkList x.cfg ⟨0, 0⟩ 0 (a ++ z :: b) + 11 := by
    have e1 : checkList x.cfg ⟨0, 0⟩ 0 (a ++ z :: b) = checkList x.cfg z.iptr (checkList x.cfg ⟨0, 0⟩ 0 (a ++ [z])) b := by
      rw [show a ++ z :: b = (a ++ [z]) ++ b by simp, checkList_append, lastIptr_snoc]
    rw [e1]
    generalize checkList x.cfg ⟨0, 0⟩ 0 (a ++ [z]) = S
    have q1 := checkList_shift x.cfg 4 (S / 4) h4' b z.iptr 0 okb
    have q2 := checkList_mono x.cfg b z.iptr z.iptr (0 + 4 * (S / 4)) S okb (by omega) (fun ha => ⟨Nat.le_refl _, (hzb ha).2⟩)
    have q3 : checkList x.cfg ⟨0, 0⟩ 0 b ≤ checkList x.cfg z.iptr 0 b + 8 := by
      cases hbe : b with
      | nil => simp [checkList]
      | cons y ys =>
        subst hbe
        simp only [checkList]
        have k1 : checkPlace x.cfg y ⟨0, 0⟩ 0 ≤ checkPlace x.cfg y z.iptr 0 + 8 * 1 := by
          rw [checkPlace_eq, checkPlace_eq, ← infoSize_shift x.cfg y (okb y (by simp)) 8 _ 1 (padItem_dvd h8)]
          apply infoSize_mono
          have := sizeIptr_near x.cfg y.iptr ⟨0, 0⟩ z.iptr
          omega
        have k2 := checkList_mono x.cfg ys y.iptr y.iptr _ _ (fun w hw => okb w (by simp [hw])) k1
          (fun ha => ⟨Nat.le_refl _, (hzb ha).2.2⟩)
        rw [checkList_shift x.cfg 8 1 h8 ys _ _ (fun w hw => okb w (by simp [hw]))] at k2
        omega
    omega
  have hk : k = 1 ∧ total ≤ cap + M + 14 ∧ checkList x.cfg ⟨0, 0⟩ 0 (a ++ z :: b) ≤ total := by
    have real : k = 1 → checkList x.cfg ⟨0, 0⟩ 0 (a ++ z :: b) ≤ cap + M + 6 := by
      rintro rfl
      have hall : old.take j ++ n :: old.drop j = a ++ z :: b := by simpa using e
      have := checkList_insert_le x.cfg (old.take j) (old.drop j) n (fun it h => hp.ok it (List.mem_of_mem_take h))
        (fun it h => hp.ok it (List.mem_of_mem_drop h)) okn (fun ha => by rw [hall]; exact hblk ha) h4'
      rw [hall, List.take_append_drop, ← hlen] at this
      omega
    by_cases hjl : j < old.length
    · have hk1 := h5 hjl
      subst hk1
      have hall : old.take j ++ n :: old.drop j = a ++ z :: b := by simpa using e
      have ht : total = sizeInsert x.cfg (old.take j) n (old.drop j) := by
        rw [splitSizes, if_pos (by omega), h1, Nat.add_sub_cancel] at h4
        simp only [Prod.mk.injEq] at h4
        exact h4.2.symm
      have := real rfl
      refine ⟨rfl, by omega, ?_⟩
      simp only [sizeInsert, sizeLoop_fst] at ht
      rw [← hall, checkList_append, ht]
      simp only [checkList]
      refine checkList_mono x.cfg (old.drop j) _ _ _ _ (fun it h => hp.ok it (List.mem_of_mem_drop h)) (Nat.le_refl _) (fun ha => ?_)
      have hbl2 := hblk ha
      rw [← hall] at hbl2
      have h2 := (blkSorted_append _ _ _ hbl2).2
      rw [lastIptr_getLast]
      cases hg : (old.take j).getLast? with
      | none => exact ⟨Nat.zero_le _, h2.2⟩
      | some o => rw [hg] at h2; exact ⟨h2.1, h2.2⟩
    · have hjl : j = old.length := by omega
      subst hjl
      rw [splitSizes, if_neg (by omega)] at h4
      simp only [List.take_length, List.drop_length, List.append_nil] at e
      have hlb : x.cfg.alt = false → (lastIptr ⟨0, 0⟩ old).blk ≤ n.iptr.blk := by
        intro ha
        rw [lastIptr_getLast]
        cases hg : old.getLast? with
        | none => exact Nat.zero_le _
        | some o =>
          obtain ⟨f', j', hf', hj', hoff', hlow', -⟩ := locate x p old hp n (hb.valid n (by simp))
          have : f' = f := by rw [hf', Option.some.injEq] at hf; exact hf
          rw [this] at hoff'
          obtain ⟨i, hi, hio⟩ := List.getElem_of_mem (List.mem_of_getLast? hg)
          have := hlow' i hi (by omega)
          rw [hio] at this
          exact blk_le_of_lt x ha o n (by rw [this]; decide)
      have g1 : checkPlace x.cfg n (lastIptr ⟨0, 0⟩ old) (checkList x.cfg ⟨0, 0⟩ 0 old) ≤ checkList x.cfg ⟨0, 0⟩ 0 old + 7 + M := by
        have q1 := checkPlace_le8 x.cfg n okn h8 (lastIptr ⟨0, 0⟩ old) (checkList x.cfg ⟨0, 0⟩ 0 old)
        have q2 := checkPlace_mono x.cfg n okn ⟨0, 0⟩ (lastIptr ⟨0, 0⟩ old) 0 0 (Nat.le_refl _) (fun ha => ⟨Nat.zero_le _, hlb ha⟩)
        omega
      have g2 := sizeLoop_small x.cfg h8 M old ⟨0, 0⟩ 0 0 hp.ok (fun ha => blkSorted_of x ha _ hp.sorted) (fun it h => hM it (by simp [h]))
        (Nat.zero_le _)
      rw [← hlen] at g1
      have hnz : checkPlace x.cfg n (lastIptr ⟨0, 0⟩ old) (sizeLoop x.cfg ⟨0, 0⟩ 0 0 old).1 + 2 * (sizeLoop x.cfg ⟨0, 0⟩ 0 0 old).2 + 16 < 2 * cap := by
        rw [sizeLoop_fst, ← hlen]
        omega
      simp only [appendLoop, hnz, if_true, Prod.mk.injEq] at h4
      obtain ⟨hk1, ht⟩ := h4
      rw [sizeLoop_fst, ← hlen] at ht
      have hk1 : k = 1 := by omega
      subst hk1
      refine ⟨rfl, by omega, ?_⟩
      rw [← e]
      simp only [List.take_succ_cons, List.take_zero, checkList_append, checkList]
      rw [← hlen, ht]
      exact Nat.le_refl _
  obtain ⟨rfl, ht1, ht2⟩ := hk
  refine ⟨by rw [hll]; omega, by rw [hrl]; omega, by rw [hrest]; rfl, ?_⟩
  intro hfull hbe
  rw [hr] at hbe
  subst hbe
  have hfull' : ¬ (checkPlace x.cfg n ⟨0, 0⟩ 0 + 8 ≤ cap - p.data.length) := of_decide_eq_false hfull
  omega

/-! ### Concrete cases -/

/-- By-value additional info compared as a number. -/
def numOf : Datum → Nat
  | .byval n => n
  | _ => 0

/-- An index ordered by a by-value 8-byte additional info (order_by_attach). -/
def altCtx : Ctx := ⟨⟨true, some ⟨true, 8, 8, true⟩⟩, true, compareOn numOf⟩
instance : TransCmp altCtx.cmpV := inferInstanceAs (TransCmp (compareOn numOf))

/-- Items of that index. -/
def ai (o v : Nat) : Item Datum := ⟨⟨1, o⟩, some (.byval v)⟩
def altOld : List (Item Datum) := [ai 1 10, ai 2 20, ai 3 30]
def altNew : List (Item Datum) := [ai 4 33, ai 5 40]

theorem altOld_ok : ∀ it ∈ altOld, ItemOK altCtx.cfg it := by
  intro it h; simp [altOld] at h; rcases h with h | h | h <;> subst h <;> simp [ItemOK, Iptr.Fits, Datum.Typed, altCtx, ai]

theorem altNew_batch : Batch altCtx altNew := by
  refine ⟨?_, ?_, by decide, by decide⟩
  · intro it h; simp [altNew] at h; rcases h with h | h <;> subst h <;> simp [ItemOK, Iptr.Fits, Datum.Typed, altCtx, ai]
  · intro it h; simp [altNew] at h; rcases h with h | h <;> subst h <;> rfl

/-- **C08, the old right bound, is violated**: a page that is not rightmost, with right bound 35, full but for 18 bytes;
the batch is one item within the bound and one beyond it. Both are placed: the right page, whose recorded bound stays 35,
holds an item greater than it (which belongs to the next page). The splitting code asks whether the page is rightmost
only after clearing the page's right link. -/
theorem C08_right_bound_violated :
    ∃ (p : Page) (f : Found) (s : Split), Holds altCtx p altOld ∧ Batch altCtx altNew ∧
      findInLeafPage altCtx p (ai 4 33) = some f ∧ f.found = false ∧ p.data.length ≤ 60 ∧
      leafEnoughSpace altCtx.cfg 60 p (ai 4 33) = false ∧
      (∀ it ∈ altOld, altCtx.cmp it (ai 6 35) = .lt) ∧ altCtx.cmp (ai 4 33) (ai 6 35) = .lt ∧
      splitLeaf altCtx.cfg 60 altOld f.offset altNew = some s ∧
      ∃ it ∈ s.rightItems, altCtx.cmp it (ai 6 35) = .gt := by
  obtain ⟨p, hp⟩ : ∃ p, buildPage altCtx.cfg altOld = some p := by
    have : (buildPage altCtx.cfg altOld).isSome = true := by decide +kernel
    exact Option.isSome_iff_exists.1 this
  have hH : Holds altCtx p altOld := ⟨altOld_ok, by
    intro it h; simp [altOld] at h; rcases h with h | h | h <;> subst h <;> rfl, by decide, hp⟩
  have hf : ((buildPage altCtx.cfg altOld).bind (fun p => findInLeafPage altCtx p (ai 4 33))).map
      (fun f => (f.found, f.offset)) = some (false, 4) := by decide +kernel
  rw [hp] at hf
  simp only [Option.bind_some, Option.map_eq_some_iff, Prod.mk.injEq] at hf
  obtain ⟨f, hf, hf1, hf2⟩ := hf
  have hlen : p.data.length = 42 := by
    have : (buildPage altCtx.cfg altOld).map (fun p => p.data.length) = some 42 := by decide +kernel
    rw [hp] at this
    simpa using this
  have hs : (splitLeaf altCtx.cfg 60 altOld 4 altNew).map (fun s => s.rightItems) = some [ai 4 33, ai 5 40] := by decide +kernel
  simp only [Option.map_eq_some_iff] at hs
  obtain ⟨s, hs, hs1⟩ := hs
  refine ⟨p, f, s, hH, altNew_batch, hf, hf1, by omega, ?_, by decide, by decide, by rw [hf2]; exact hs, ai 5 40, by rw [hs1]; simp, by decide⟩
  simp only [leafEnoughSpace, hlen]
  decide

-- non-vacuity of C08_split_exact: the same page and batch meet its hypotheses
example : ∃ p f, Holds altCtx p altOld ∧ Batch altCtx altNew ∧ findInLeafPage altCtx p (altNew.head (by decide)) = some f ∧
    f.found = false ∧ 32 ≤ p.data.length ∧ padOf altCtx.cfg ∣ 8 := by
  obtain ⟨p, f, s, h1, h2, h3, h4, h5, -⟩ := C08_right_bound_violated
  refine ⟨p, f, h1, h2, h3, h4, ?_, by decide⟩
  have := h1.facts.2.2.2
  rw [this]; decide

-- non-vacuity of C08_fits: the same page in a tree whose pages hold 100 bytes
example : ∃ p f, Holds altCtx p altOld ∧ Batch altCtx altNew ∧ findInLeafPage altCtx p (altNew.head (by decide)) = some f ∧
    f.found = false ∧ 32 ≤ p.data.length ∧ padOf altCtx.cfg ∣ 8 ∧ (∀ it ∈ altOld ++ altNew, padItem altCtx.cfg it = 1) ∧ p.data.length ≤ 100 ∧
    (∀ it ∈ altOld ++ altNew, checkPlace altCtx.cfg it ⟨0, 0⟩ 0 ≤ 14) ∧ 3 * 14 + 32 ≤ 100 := by
  obtain ⟨p, f, s, h1, h2, h3, h4, h5, -⟩ := C08_right_bound_violated
  have := h1.facts.2.2.2
  refine ⟨p, f, h1, h2, h3, h4, by rw [this]; decide, by decide, by decide, by omega, by decide, by decide⟩

/-- A column with byte-aligned variable-length additional info. -/
def bigCtx : Ctx := ⟨⟨false, some ⟨false, -1, 1, false⟩⟩, false, compareOn numOf⟩
instance : TransCmp bigCtx.cmpV := inferInstanceAs (TransCmp (compareOn numOf))

/-- An item whose additional info takes `n + 4` bytes. -/
def bigItem (b n : Nat) : Item Datum := ⟨⟨b, 1⟩, some (.varlena .full (List.replicate n 7))⟩

/-- **C08 for large items: the left page is overfilled.** Capacity 7368 is the real one (8 kB pages); every item is
below the limit of 2712 bytes the code puts on index tuples, the old page fits with 50 bytes left, yet the split puts
7610 bytes on the left page. -/
theorem C08_overfilled_large_items :
    ∃ (p : Page) (f : Found) (s : Split),
      let old := [bigItem 1 2444, bigItem 2 2444, bigItem 4 2394]
      Holds bigCtx p old ∧ Batch bigCtx [bigItem 3 2704] ∧ p.data.length ≤ 7368 ∧
      (∀ it ∈ bigItem 3 2704 :: old, checkPlace bigCtx.cfg it ⟨0, 0⟩ 0 < 2712) ∧
      findInLeafPage bigCtx p (bigItem 3 2704) = some f ∧ f.found = false ∧
      splitLeaf bigCtx.cfg 7368 old f.offset [bigItem 3 2704] = some s ∧ 7368 < s.left.data.length := by
  have hstor : ∀ b n, 1 ≤ b → 127 ≤ n → (bigItem b n).stored bigCtx.cfg = bigItem b n := by
    intro b n _ hn
    simp [Item.stored, bigItem, bigCtx, Datum.stored, canMakeShort, packable]
    omega
  have hok : ∀ b n, b < 2 ^ 32 → n < 10000 → ItemOK bigCtx.cfg (bigItem b n) := by
    intro b n hb hn
    simp only [ItemOK, Iptr.Fits, Datum.Typed, bigCtx, bigItem]
    simp
    omega
  have hcmp : ∀ b n b' n', bigCtx.cmp (bigItem b n) (bigItem b' n') = if b < b' then .lt else if b > b' then .gt else .eq := by
    intro b n b' n'
    simp [bigItem, Ctx.cmp, bigCtx, cmpItem, cmpIptr]
    split_ifs <;> first | rfl | omega
  have hso : SSorted bigCtx.cmp [bigItem 1 2444, bigItem 2 2444, bigItem 4 2394] := by
    simp [SSorted, hcmp]
  have hok' : ∀ it ∈ [bigItem 1 2444, bigItem 2 2444, bigItem 4 2394], ItemOK bigCtx.cfg it := by
    intro it h; simp at h; rcases h with h | h | h <;> subst h <;> exact hok _ _ (by decide) (by decide)
  have hst' : ∀ it ∈ [bigItem 1 2444, bigItem 2 2444, bigItem 4 2394], it.stored bigCtx.cfg = it := by
    intro it h; simp at h; rcases h with h | h | h <;> subst h <;> exact hstor _ _ (by decide) (by decide)
  obtain ⟨data, hd, hdl⟩ := placeList_ok bigCtx.cfg _ 0 ⟨0, 0⟩ hok'
  obtain ⟨idx, hi1, hi2, hi3⟩ := updateItemIndexes_ok bigCtx.cfg _ data hok' hst' hd
  have hp := holds_of hok' hst' hso hd hi1
  have hB : Batch bigCtx [bigItem 3 2704] := by
    refine ⟨fun it h => ?_, fun it h => ?_, by simp [SSorted], fun it h => ?_⟩ <;> (simp at h; subst h)
    · exact hok _ _ (by decide) (by decide)
    · exact hstor _ _ (by decide) (by decide)
    · decide
  have csz : ∀ b n (prev : Iptr) s, 127 ≤ n → b < 128 → prev.blk ≤ b → checkPlace bigCtx.cfg (bigItem b n) prev s = s + 2 + (n + 4) := by
    intro b n prev s hn hb hpb
    have : (b + 2 ^ 32 - prev.blk) % 2 ^ 32 = b - prev.blk := subBlk _ _ hpb (by omega)
    simp [checkPlace, bigItem, bigCtx, computeSize, canMakeShort, packable, sizeIptr, sizeOff, alignUp, this]
    have e1 : sizeBlk (b - prev.blk) = 1 := by rw [sizeBlk, if_pos (by omega)]
    rw [if_neg (by omega), e1]
  have hlen : data.length = 7300 := by
    rw [Nat.zero_add] at hdl
    rw [hdl]
    simp only [checkList]
    rw [csz _ _ _ _ (by decide) (by decide) (by decide), csz _ _ _ _ (by decide) (by decide) (by decide), csz _ _ _ _ (by decide) (by decide) (by decide)]
  obtain ⟨f, j, hf, hj, hoff, hlow, hhigh, -⟩ := locate bigCtx _ _ hp (bigItem 3 2704) (by decide)
  have hj2 : j = 2 := by
    simp only [List.length_cons, List.length_nil] at hj
    have h3 : ¬ 2 < j := fun h => by
      have := hlow 2 (by simp) h
      simp [hcmp] at this
    by_cases h0 : j = 0
    · subst h0; exact absurd (by simp [hcmp]) (hhigh (by simp))
    · by_cases h1 : j = 1
      · subst h1; exact absurd (by simp [hcmp]) (hhigh (by simp))
      · omega
  subst hj2
  have hfound : f.found = false := by
    obtain ⟨pg, hpg, _, g, hg, hfnd, -, -⟩ := C06_directory_lookup_exact bigCtx _ (bigItem 3 2704) hp.ok hp.stored hp.sorted (by decide)
    rw [hp.built, Option.some.injEq] at hpg
    subst hpg
    rw [hf, Option.some.injEq] at hg
    subst hg
    cases hx : f.found with
    | false => rfl
    | true =>
      obtain ⟨it, hit, he⟩ := hfnd.1 hx
      simp only [List.mem_cons, List.not_mem_nil, or_false] at hit
      rcases hit with h | h | h <;> subst h <;> simp [hcmp] at he
  obtain ⟨j, k, total, a, z, b, s, h1, h2, h3, h4, h5, e, hsort, hs, hl, hr, hz, hrest, Hl, Hr, c1, c2, c3, c4⟩ :=
    split_core bigCtx 7368 _ _ hp (bigItem 3 2704) [] hB f hf hfound (by simp [hlen]) (by decide)
  have hj3 : j = 2 := by omega
  subst hj3
  have hk1 := h5 (by simp)
  subst hk1
  have htot : total = 10010 := by
    simp only [splitSizes, hoff, List.length_cons, List.length_nil] at h4
    simp only [Nat.reduceAdd, Nat.le_refl, if_true, Prod.mk.injEq, true_and, Nat.reduceSub, sizeInsert, sizeLoop_fst,
      List.take_succ_cons, List.take_zero, List.drop_succ_cons, List.drop_zero, checkList, lastIptr] at h4
    rw [← h4, csz _ _ _ _ (by decide) (by decide) (by decide), csz _ _ _ _ (by decide) (by decide) (by decide),
      csz _ _ _ _ (by decide) (by decide) (by decide), csz _ _ _ _ (by decide) (by decide) (by decide)]
  subst htot
  simp only [List.take_succ_cons, List.take_zero, List.drop_succ_cons, List.drop_zero, List.cons_append, List.nil_append] at e
  have hleft : s.left.data.length = 7610 := by
    rw [Hl.facts.2.2.2]
    have f1 : ∀ prev t, prev.blk ≤ 1 → checkPlace bigCtx.cfg (bigItem 1 2444) prev t = t + 2450 := fun prev t h => csz _ _ _ _ (by decide) (by decide) h
    have f2 : ∀ prev t, prev.blk ≤ 2 → checkPlace bigCtx.cfg (bigItem 2 2444) prev t = t + 2450 := fun prev t h => csz _ _ _ _ (by decide) (by decide) h
    have f3 : ∀ prev t, prev.blk ≤ 3 → checkPlace bigCtx.cfg (bigItem 3 2704) prev t = t + 2710 := fun prev t h => csz _ _ _ _ (by decide) (by decide) h
    have f4 : ∀ prev t, prev.blk ≤ 4 → checkPlace bigCtx.cfg (bigItem 4 2394) prev t = t + 2400 := fun prev t h => csz _ _ _ _ (by decide) (by decide) h
    match a, e with
    | [], e =>
      simp only [List.nil_append, List.cons.injEq] at e
      obtain ⟨rfl, -⟩ := e
      simp only [List.nil_append, checkList] at c2
      rw [f1 _ _ (by decide)] at c2; omega
    | [a1], e =>
      simp only [List.cons_append, List.nil_append, List.cons.injEq] at e
      obtain ⟨rfl, rfl, -⟩ := e
      simp only [List.cons_append, List.nil_append, checkList] at c2
      rw [f1 _ _ (by decide), f2 _ _ (by decide)] at c2; omega
    | [a1, a2], e =>
      simp only [List.cons_append, List.nil_append, List.cons.injEq] at e
      obtain ⟨rfl, rfl, rfl, -⟩ := e
      simp only [List.cons_append, List.nil_append, checkList]
      rw [f1 _ _ (by decide), f2 _ _ (by decide), f3 _ _ (by decide)]
    | a1 :: a2 :: a3 :: as, e =>
      simp only [List.cons_append, List.cons.injEq] at e
      obtain ⟨rfl, rfl, rfl, e⟩ := e
      simp only [checkList] at c1
      rw [f1 _ _ (by decide), f2 _ _ (by decide), f3 _ _ (by decide)] at c1
      have := checkList_ge bigCtx.cfg as (bigItem 3 2704).iptr (0 + 2450 + 2450 + 2710) (fun it hit => Hl.ok it (by simp [hit]))
      omega
  refine ⟨_, f, s, hp, hB, by simp [hlen], ?_, hf, hfound, hs, by omega⟩
  intro it hit
  simp only [List.mem_cons, List.not_mem_nil, or_false] at hit
  rcases hit with h | h | h | h <;> subst h <;> rw [csz _ _ _ _ (by decide) (by decide) (by decide)] <;> decide

end Rum.Props
