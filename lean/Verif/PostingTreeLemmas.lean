import Verif.PostingTree
import Verif.TreeRun
import Verif.Props.Split
/-
The methods of posting trees satisfy the laws the tree needs.
-/
namespace Rum.Tree
open Rum Rum.Codec Rum.Leaf Rum.Entry Rum.Props Std

theorem searchLoop_end (f : Nat → Ordering) (N : Nat) (hN : f N ≠ .gt) : ∀ fuel low high, high - low ≤ fuel → 1 ≤ low → low ≤ N →
    low ≤ high → high ≤ N + 1 → (low = 1 ∨ f (low - 1) = .gt) →
    1 ≤ (searchLoop f fuel low high).2 ∧ (searchLoop f fuel low high).2 ≤ N ∧
      (f (searchLoop f fuel low high).2 = .eq ∨ (searchLoop f fuel low high).2 = 1 ∨ f ((searchLoop f fuel low high).2 - 1) = .gt) := by
  intro fuel
  induction fuel with
  | zero =>
    intro low high h1 h2 h3 h4 h5 h6
    have : low = high := by omega
    subst this
    exact ⟨h2, h3, Or.inr h6⟩
  | succ n ih =>
    intro low high h1 h2 h3 h4 h5 h6
    rw [searchLoop]
    by_cases hlt : high > low
    · rw [if_pos hlt]
      have hd : (high - low) / 2 < high - low := Nat.div_lt_self (by omega) (by omega)
      generalize hm : low + (high - low) / 2 = mid
      simp only
      cases hc : f mid with
      | eq => exact ⟨by simp only; omega, by simp only; omega, Or.inl hc⟩
      | gt =>
        have : mid ≠ N := fun h => hN (h ▸ hc)
        exact ih _ _ (by omega) (by omega) (by omega) (by omega) (by omega) (Or.inr (by simpa using hc))
      | lt => exact ih _ _ (by omega) h2 h3 (by omega) (by omega) h6
    · rw [if_neg hlt]
      have : low = high := by omega
      subst this
      exact ⟨h2, h3, Or.inr h6⟩

/-- Equal members of a strictly sorted list are the same. -/
theorem ssorted_unique {β : Type} {cmp : β → β → Ordering} [TransCmp cmp] {l : List β} (h : SSorted cmp l) {a b : β} (ha : a ∈ l) (hb : b ∈ l)
    (he : cmp a b = .eq) : a = b := by
  obtain ⟨i, hi, rfl⟩ := List.mem_iff_getElem.1 ha
  obtain ⟨j, hj, rfl⟩ := List.mem_iff_getElem.1 hb
  rcases Nat.lt_trichotomy i j with hij | hij | hij
  · have := List.pairwise_iff_getElem.1 h i j hi hj hij
    rw [this] at he; simp at he
  · subst hij; rfl
  · have := List.pairwise_iff_getElem.1 h j i hj hi hij
    rw [OrientedCmp.gt_of_lt this] at he; simp at he

variable {α K : Type} [LinearOrder K]

/-- dataLocateItem chooses a downlink that leads to the item, whatever the order of the keys. -/
theorem locateData_ok {o : Ops α} {key : α → K} (hk : KeyOf o.cmp key) (ho : o.locate = fun _ keys x => locateData o.cmp keys x) :
    LocateOK o key false := by
  intro rm keys x hne _
  have hlen : 1 ≤ keys.length := List.length_pos_iff.2 hne
  rw [ho]
  obtain ⟨h1, h2, h3⟩ := searchLoop_end (fun mid => if mid = keys.length then .lt else cmpTuple o.cmp keys x mid) keys.length
    (by simp) (keys.length + 1) 1 (keys.length + 1) (by omega) (by omega) hlen (by omega) (by omega) (Or.inl rfl)
  generalize hr : (searchLoop (fun mid => if mid = keys.length then .lt else cmpTuple o.cmp keys x mid) (keys.length + 1) 1
    (keys.length + 1)).2 = r at h1 h2 h3
  have hloc : locateData o.cmp keys x = r := hr
  refine ⟨r - 1, by simp only [hloc]; omega, by omega, ?_⟩
  rcases h3 with h3 | h3 | h3
  · by_cases hl : r = keys.length
    · rw [if_pos hl] at h3; simp at h3
    · rw [if_neg hl] at h3
      have hb : r - 1 < keys.length := by omega
      simp only [cmpTuple, List.getElem?_eq_getElem hb] at h3
      exact Or.inr (Or.inr ⟨((hk.eq _ _).1 h3).symm, Or.inl (by omega)⟩)
  · exact Or.inl (by omega)
  · by_cases h0 : r = 1
    · exact Or.inl (by omega)
    · rw [if_neg (by omega)] at h3
      have hb : r - 1 - 1 < keys.length := by omega
      simp only [cmpTuple, List.getElem?_eq_getElem hb] at h3
      exact Or.inr (Or.inl ⟨r - 1 - 1, hb, by omega, (hk.gt _ _).1 h3⟩)

theorem decode_holds {x : Ctx} {p : Leaf.Page} {its : List (Item Datum)} (h : Holds x p its) : decodePage x.cfg p = its := by
  obtain ⟨h1, h2, h3, h4⟩ := h.facts
  have := readList_placeList x.cfg its 0 ⟨0, 0⟩ p.data [] h.ok (by constructor <;> simp) h1
  rw [List.append_nil] at this
  have hm : its.map (Item.stored x.cfg) = its := by
    conv_rhs => rw [← List.map_id its]
    exact List.map_congr_left (fun i hi => h.stored i hi)
  unfold decodePage
  rw [h2, this, hm]

/-- What limits the items of a posting tree: their greatest size, and whether items are inserted one at a time (`single`: what inserting
rows does). Only then may their additional info need alignment padding: see `C07_overfilled_align8` for what happens to batches otherwise. -/
structure Lim where
  size : Nat
  single : Bool

instance (n : Nat) : OfNat Lim n := ⟨⟨n, false⟩⟩

/-- An item that can be put into a posting tree: storable, in stored form, valid offset number, not too big, no alignment padding unless
items are inserted one at a time. -/
structure Storable (x : Ctx) (M : Lim) (it : Item Datum) : Prop where
  ok : ItemOK x.cfg it
  stored : it.stored x.cfg = it
  valid : 1 ≤ it.iptr.off
  small : checkPlace x.cfg it ⟨0, 0⟩ 0 ≤ M.size
  flat : M.single = false → padItem x.cfg it = 1

/-- Items that fit on one leaf page. -/
structure FitsPage (x : Ctx) (M : Lim) (cap : Nat) (its : List (Item Datum)) : Prop where
  all : ∀ it ∈ its, Storable x M it
  fit : checkList x.cfg ⟨0, 0⟩ 0 its ≤ cap

theorem FitsPage.holds {x : Ctx} {M : Lim} {cap : Nat} {its : List (Item Datum)} (h : FitsPage x M cap its) (hs : SSorted x.cmp its) :
    ∃ p, Holds x p its ∧ p.data.length ≤ cap := by
  obtain ⟨data, hd, hdl⟩ := placeList_ok x.cfg its 0 ⟨0, 0⟩ (fun it hi => (h.all it hi).ok)
  obtain ⟨idx, hi1, hi2, hi3⟩ := updateItemIndexes_ok x.cfg its data (fun it hi => (h.all it hi).ok) (fun it hi => (h.all it hi).stored) hd
  refine ⟨_, holds_of (fun it hi => (h.all it hi).ok) (fun it hi => (h.all it hi).stored) hs hd hi1, ?_⟩
  have := h.fit
  simp only at *
  omega

theorem batch_of {x : Ctx} {M : Lim} {l : List (Item Datum)} (hs : SSorted x.cmp l) (h : ∀ y ∈ l, Storable x M y) : Batch x l :=
  ⟨fun y hy => (h y hy).ok, fun y hy => (h y hy).stored, hs, fun y hy => (h y hy).valid⟩

/-- The batches that may be inserted. -/
def BatchIn (x : Ctx) (M : Lim) (l : List (Item Datum)) : Prop := (∀ y ∈ l, Storable x M y) ∧ (M.single = true → l.length ≤ 1)

theorem dataLeafLaws (x : Ctx) [TransCmp x.cmpV] (cap capI : Nat) (M : Lim) (build : Bool) (h3M : 3 * M.size + 40 ≤ cap) (h8 : padOf x.cfg ∣ 8)
    (h44 : M.single = true → padOf x.cfg ∣ 4) :
    LeafLaws (dataOps x cap capI build) true (FitsPage x M cap) (BatchIn x M) (fun _ => True) where
  keys := fun _ _ _ _ => trivial
  rest := fun l k h => ⟨fun y hy => h.1 y (List.mem_of_mem_drop hy), fun hs => by
    have := h.2 hs
    rw [List.length_drop]; omega⟩
  found := by
    intro its y ys hP hs hy
    have hy := hy.1 y (by simp)
    obtain ⟨p, hp, hlen⟩ := hP.holds hs
    obtain ⟨q, h1, h2, f, h3, h4, h5⟩ := C06_directory_lookup_exact x its y (fun it hi => (hP.all it hi).ok)
      (fun it hi => (hP.all it hi).stored) hs hy.valid
    show dataFound x its y = true ↔ _
    unfold dataFound
    rw [h1]
    simp only [h3, Option.any_some]
    exact h4
  place := by
    intro its hi y ys hP hs hb hXX hroom hle hold
    obtain ⟨hX, hone⟩ := hXX
    obtain ⟨p, hp, hlen⟩ := hP.holds hs
    have hB := batch_of hb hX
    obtain ⟨p', k, its', h1, h2, h3, h4, h5, h6⟩ := C07_place_exact x cap p its (y :: ys) hi hp hB (by simp)
    have hroom' : leafEnoughSpace x.cfg cap p y = true := by
      have : dataRoomLeaf x cap its (y :: ys) = true := hroom
      simpa only [dataRoomLeaf, hp.built] using this
    have hpl : (dataOps x cap capI build).place its hi (y :: ys) = (its', (y :: ys).drop k) := by
      show dataPlace x cap its hi (y :: ys) = _
      unfold dataPlace
      rw [hp.built]
      simp only [h1, decode_holds h3]
    rw [hpl]
    have hcap : p'.data.length ≤ cap := by
      cases hM : M.single with
      | false =>
        exact C07_never_overfilled x cap p p' its (y :: ys) _ hi hp hB hlen (by
          intro it hit
          rcases List.mem_append.1 hit with h | h
          · exact (hP.all it h).flat hM
          · exact (hX it h).flat hM) h1
      | true =>
        have hys : ys = [] := by
          have := hone hM
          simpa using this
        subst hys
        exact C07_never_overfilled_single x cap p p' its _ y hi hp hB hlen (h44 hM) hroom' h1
    refine ⟨k, h6 h8 hroom' hle, h2, rfl, ⟨?_, ?_⟩, h3.sorted, fun b hb' => h5 b hb' (hold b hb'), fun z => ?_⟩
    · intro it hit
      rcases (h4 it).1 hit with h | ⟨h, -⟩
      · exact hP.all it h
      · exact hX it (List.mem_of_mem_take h)
    · rw [← h3.facts.2.2.2]; exact hcap
    · simp only [Upd, if_true]; exact h4 z
  cut := by
    intro its y ys hP hs hb hXX hroom hnew
    obtain ⟨hX, hone⟩ := hXX
    obtain ⟨p, hp, hlen⟩ := hP.holds hs
    have hB := batch_of hb hX
    have hroom' : leafEnoughSpace x.cfg cap p y = false := by
      have : dataRoomLeaf x cap its (y :: ys) = false := hroom
      simpa only [dataRoomLeaf, hp.built] using this
    have hbig : 32 ≤ p.data.length := by
      have := (hX y (by simp)).small
      simp only [leafEnoughSpace, decide_eq_false_iff_not] at hroom'
      omega
    obtain ⟨q, q1, q2, f, hf, hf2, hf3⟩ := C06_directory_lookup_exact x its y (fun it hi => (hP.all it hi).ok)
      (fun it hi => (hP.all it hi).stored) hs (hX y (by simp)).valid
    rw [hp.built] at q1
    obtain rfl := Option.some.inj q1
    have hnf : f.found = false := by
      cases hff : f.found with
      | false => rfl
      | true =>
        obtain ⟨i, hi, he⟩ := hf2.1 hff
        exact absurd he (hnew rfl i hi)
    obtain ⟨j, k, total, a, z, b, s, c1, c2, c3, c4, c5, c6, c7, c8, c9, c10, c11, c12, c13, c14, c15⟩ :=
      split_core x cap p its hp y ys hB f hf hnf hbig h8
    have hsmall : ∀ it ∈ its ++ y :: ys, checkPlace x.cfg it ⟨0, 0⟩ 0 ≤ M.size := by
      intro it hit
      rcases List.mem_append.1 hit with h | h
      · exact (hP.all it h).small
      · exact (hX it h).small
    obtain ⟨f1, f2, f3, f4⟩ : s.left.data.length ≤ cap ∧ s.right.data.length ≤ cap ∧ s.rest.length < (y :: ys).length ∧
        (leafEnoughSpace x.cfg cap p y = false → s.rightItems ≠ []) := by
      cases hM : M.single with
      | false =>
        exact C08_fits x cap M.size p its (y :: ys) hp hB (by simp) f hf hnf hbig h8 (by
          intro it hit
          rcases List.mem_append.1 hit with h | h
          · exact (hP.all it h).flat hM
          · exact (hX it h).flat hM) hlen hsmall (by omega) s c8
      | true =>
        have hys : ys = [] := by
          have := hone hM
          simpa using this
        subst hys
        obtain ⟨g1, g2, g3, g4⟩ := C08_fits_single x cap M.size p its y hp hB f hf hnf hbig (h44 hM) hlen hsmall h3M s c8
        exact ⟨g1, g2, by rw [g3]; simp, g4⟩
    have hcut : (dataOps x cap capI build).cut its (y :: ys) = (a ++ [z], b, (y :: ys).drop k) := by
      show dataCut x cap its (y :: ys) = _
      unfold dataCut
      rw [hp.built]
      simp only [hf, c8, decode_holds c13, decode_holds c14, c12]
    rw [hcut]
    have hmem : ∀ w, w ∈ a ++ [z] ++ b ↔ w ∈ its ∨ w ∈ (y :: ys).take k := by
      intro w
      rw [show a ++ [z] ++ b = a ++ z :: b by simp, ← c6]
      have : w ∈ its ↔ w ∈ its.take j ∨ w ∈ its.drop j := by rw [← List.mem_append, List.take_append_drop]
      rw [this]
      simp only [List.mem_append]
      constructor
      · rintro ((h | h) | h)
        exacts [Or.inl (Or.inl h), Or.inr h, Or.inl (Or.inr h)]
      · rintro ((h | h) | h)
        exacts [Or.inl (Or.inl h), Or.inr h, Or.inl (Or.inr h)]
    have hall : ∀ w ∈ a ++ [z] ++ b, Storable x M w := by
      intro w hw
      rcases (hmem w).1 hw with h | h
      · exact hP.all w h
      · exact hX w (List.mem_of_mem_take h)
    have htr : TransCmp x.cmp := cmpItem_trans _ _
    have hsort : SSorted x.cmp (a ++ [z] ++ b) := by rw [show a ++ [z] ++ b = a ++ z :: b by simp]; exact c7
    refine ⟨k, ?_, c3, rfl, by simp, ?_, ⟨fun w hw => hall w (by simp only [List.mem_append] at hw ⊢; exact Or.inl hw), ?_⟩,
      ⟨fun w hw => hall w (by simp only [List.mem_append]; exact Or.inr hw), ?_⟩, hsort, fun w => ?_, ?_⟩
    · rw [c12, List.length_drop] at f3
      omega
    · rw [← c10]; exact f4 hroom'
    · rw [← c13.facts.2.2.2]; exact f1
    · rw [← c14.facts.2.2.2]; exact f2
    · simp only [Upd, if_true]
      constructor
      · intro hw
        rcases (hmem w).1 hw with h | h
        · exact Or.inl h
        · by_cases hwi : w ∈ its
          · exact Or.inl hwi
          · refine Or.inr ⟨h, fun v hv he => hwi ?_⟩
            have := ssorted_unique hsort ((hmem v).2 (Or.inl hv)) hw he
            exact this ▸ hv
      · rintro (h | ⟨h, -⟩)
        · exact (hmem w).2 (Or.inl h)
        · exact (hmem w).2 (Or.inr h)
    · rintro ⟨i, hi, hlt⟩
      by_cases hj : j < its.length
      · exact c5 hj
      · exfalso
        have hje : j = its.length := by omega
        have : f.offset = _ := hf3.1
        rw [c1, hje] at this
        have hfil : (its.filter (fun it => x.cmp it y == .lt)).length = its.length := by omega
        have := (List.length_filter_eq_length_iff.1 hfil) i hi
        have h2 : x.cmp i y = .lt := by simpa using this
        have h3 : x.cmp y i = .lt := hlt
        rw [OrientedCmp.gt_of_lt h2] at h3
        simp at h3

theorem dataInnerLaws (x : Ctx) (cap capI : Nat) (build : Bool) (hI : 48 ≤ capI) :
    InnerLaws (dataOps x cap capI build) (fun D => D.length * 24 ≤ capI) (fun _ => True) where
  zero := trivial
  rk := fun _ _ _ _ _ _ => trivial
  keys := fun _ _ _ _ => trivial
  room := by
    intro D off kk c r hD _ hroom h1 h2
    have : decide (24 ≤ capI - D.length * 24) = true := hroom
    rw [decide_eq_true_iff] at this
    have hl : (addDown D off kk c r).length = D.length + 1 := by
      unfold addDown
      rw [List.length_insertIdx_of_le_length (by rw [List.length_modify]; omega), List.length_modify]
    rw [hl]; omega
  split := by
    intro rm D off kk c r hD _ hroom h1 h2
    have hr : ¬ 24 ≤ capI - D.length * 24 := by
      have : decide (24 ≤ capI - D.length * 24) = false := hroom
      simpa using this
    have hl : (addDown D off kk c r).length = D.length + 1 := by
      unfold addDown
      rw [List.length_insertIdx_of_le_length (by rw [List.length_modify]; omega), List.length_modify]
    have hD' : capI / 24 = D.length := by omega
    have hs : (dataOps x cap capI build).sep rm (addDown D off kk c r) = if build && rm then capI / 24 else (D.length + 1) / 2 := by
      show (if build && rm then capI / 24 else (addDown D off kk c r).length / 2) = _
      rw [hl]
    rw [hs, List.length_take, List.length_drop, hl]
    split <;> omega
  root := by
    intro _ _ _ _ _ _; simpa using hI

end Rum.Tree
