import Verif.EntryTree
import Verif.PostingTreeLemmas
import Verif.Props.EntryPage
/-
The methods of the entry tree satisfy the laws the tree needs.
-/
namespace Rum.Index
open Rum Rum.Codec Rum.Leaf Rum.Entry Rum.Tree Rum.Props Std

variable {V : Type}

theorem leafT_key (l : List (Ent V)) : (l.map leafT).map ETuple.key = l := by
  rw [List.map_map]
  exact List.map_id'' (fun _ => rfl) l

instance cmp_trans (ix : Ix V) [∀ n, TransCmp (ix.cmpK n)] : TransCmp ix.cmp where
  eq_swap := OrientedCmp.eq_swap (cmp := cmpAttEntries ix.cmpK)
  isLE_trans := fun h1 h2 => TransCmp.isLE_trans (cmp := cmpAttEntries ix.cmpK) h1 h2

/-- Where a tuple goes on a leaf. -/
inductive Spot (ix : Ix V) (its : List (Ent V)) (e : Ent V) : Prop
  | found (A B : List (Ent V)) (t : Ent V) : its = A ++ t :: B → ix.locate its e = (true, A.length + 1) → ix.cmp e t = .eq → Spot ix its e
  | fresh (A B : List (Ent V)) : its = A ++ B → ix.locate its e = (false, A.length + 1) → (∀ a ∈ A, ix.cmp e a = .gt) →
      (∀ b ∈ B, ix.cmp e b = .lt) → Spot ix its e

theorem spot (ix : Ix V) [∀ n, TransCmp (ix.cmpK n)] {its : List (Ent V)} (hs : SSorted ix.cmp its) (e : Ent V) : Spot ix its e := by
  have ho : KeyOrder ix.cmp its := by
    have := KeyOrder.of_sorted (K := Ent V) (T := Ent V) ix.cmp id its (by simpa using hs)
    exact this
  rcases C17_leaf ix.cmp its ho e with ⟨off, t, h1, h2, h3, h4⟩ | ⟨off, h1, h2, h3, -, h5, h6⟩
  · obtain ⟨hlt, rfl⟩ := List.getElem?_eq_some_iff.1 h2
    refine .found (its.take (off - 1)) (its.drop off) its[off - 1] ?_ ?_ h4
    · have := List.drop_eq_getElem_cons hlt
      rw [Nat.sub_add_cancel h3] at this
      rw [← this, List.take_append_drop]
    · rw [Ix.locate, h1, List.length_take, Nat.min_eq_left (by omega), Nat.sub_add_cancel h3]
  · refine .fresh (its.take (off - 1)) (its.drop (off - 1)) (List.take_append_drop _ _).symm ?_ h5 h6
    rw [Ix.locate, h1, List.length_take, Nat.min_eq_left (by omega), Nat.sub_add_cancel h2]

theorem insertIdx_mid {T : Type} (A B : List T) (x : T) (n : Nat) (h : n = A.length) : (A ++ B).insertIdx n x = A ++ x :: B := by
  subst h
  induction A with
  | nil => simp
  | cons a A ih => simpa using ih

theorem used_map_append (f : Ent V → ETuple (Ent V)) (A B : List (Ent V)) : used ((A ++ B).map f) = used (A.map f) + used (B.map f) := by
  rw [List.map_append, used_append]

/-- The new content of a leaf: both branches. -/
theorem spot_list (ix : Ix V) [∀ n, TransCmp (ix.cmpK n)] {its : List (Ent V)} (hs : SSorted ix.cmp its) (e : Ent V) :
    ∃ l : List (Ent V), placeToPage true (its.map leafT) (ix.locate its e).2 (ix.request its e) = l.map leafT ∧
      Expected (its.map leafT) (ix.locate its e).2 (ix.request its e) = l.map leafT ∧ SSorted ix.cmp l ∧
      (∀ y, y ∈ l ↔ Upd ix.cmp false its [e] y) ∧
      used (l.map leafT) + replacedSpace (its.map leafT) (ix.locate its e).2 (ix.request its e) = used (its.map leafT) + (leafT e).space ∧
      1 ≤ (ix.locate its e).2 ∧
      (if (ix.request its e).isDelete then (ix.locate its e).2 ≤ (its.map leafT).length else (ix.locate its e).2 ≤ (its.map leafT).length + 1) := by
  have ht := cmp_trans ix
  rcases spot ix hs e with ⟨A, B, t, rfl, hl, he⟩ | ⟨A, B, rfl, hl, hA, hB⟩
  · refine ⟨A ++ e :: B, ?_, ?_, ?_, fun y => ?_, ?_, ?_, ?_⟩
    · simp only [placeToPage, preparePage, Ix.request, hl, if_true, Nat.add_sub_cancel]
      rw [List.map_append, List.map_cons]
      have : ((A.map leafT) ++ leafT t :: B.map leafT).eraseIdx A.length = A.map leafT ++ B.map leafT := by
        rw [List.eraseIdx_append_of_length_le (by simp)]; simp
      rw [this]
      have h2 : (A.map leafT ++ B.map leafT).insertIdx A.length (leafT e) = A.map leafT ++ leafT e :: B.map leafT := by
        exact insertIdx_mid _ _ _ _ (by simp)
      rw [h2, List.map_append, List.map_cons]
    · simp only [Expected, Ix.request, hl, if_true, Nat.add_sub_cancel, List.map_append, List.map_cons]
      have e1 : ((A.map leafT) ++ leafT t :: B.map leafT).take A.length = A.map leafT := by
        rw [List.take_append_of_le_length (by simp), List.take_of_length_le (by simp)]
      have e2 : ((A.map leafT) ++ leafT t :: B.map leafT).drop (A.length + 1) = B.map leafT := by
        rw [List.drop_append]; simp
      rw [e1, e2]
    · obtain ⟨s1, s2, s3⟩ := List.pairwise_append.1 hs
      obtain ⟨s4, s5⟩ := List.pairwise_cons.1 s2
      refine List.pairwise_append.2 ⟨s1, List.pairwise_cons.2 ⟨fun b hb => TransCmp.lt_of_eq_of_lt he (s4 b hb), s5⟩, fun a ha b hb => ?_⟩
      rcases List.mem_cons.1 hb with rfl | hb
      · exact TransCmp.lt_of_lt_of_eq (s3 a ha t (by simp)) (OrientedCmp.eq_symm he)
      · exact s3 a ha b (by simp [hb])
    · obtain ⟨s1, s2, s3⟩ := List.pairwise_append.1 hs
      obtain ⟨s4, s5⟩ := List.pairwise_cons.1 s2
      simp only [Upd, Bool.false_eq_true, if_false, List.mem_append, List.mem_cons, List.not_mem_nil, or_false, forall_eq]
      have hA : y ∈ A → ix.cmp e y ≠ .eq := fun hy h => by
        have h1 := s3 y hy t (by simp)
        have h2 := TransCmp.eq_trans (cmp := ix.cmp) (OrientedCmp.eq_symm he) h
        rw [OrientedCmp.eq_symm h2] at h1
        cases h1
      have hB : y ∈ B → ix.cmp e y ≠ .eq := fun hy h => by
        have h1 := s4 y hy
        have h2 := TransCmp.eq_trans (cmp := ix.cmp) (OrientedCmp.eq_symm he) h
        rw [h2] at h1
        cases h1
      constructor
      · rintro (h | h | h)
        · exact Or.inr ⟨Or.inl h, hA h⟩
        · exact Or.inl h
        · exact Or.inr ⟨Or.inr (Or.inr h), hB h⟩
      · rintro (h | ⟨h | h | h, h2⟩)
        · exact Or.inr (Or.inl h)
        · exact Or.inl h
        · exact absurd he (h ▸ h2)
        · exact Or.inr (Or.inr h)
    · simp only [replacedSpace, Ix.request, hl, if_true, Nat.add_sub_cancel, List.map_append, List.map_cons]
      have : ((A.map leafT) ++ leafT t :: B.map leafT)[A.length]? = some (leafT t) := by
        rw [List.getElem?_append_right (by simp)]; simp
      rw [this]
      simp only [used_append, used_cons]
      omega
    · rw [hl]; omega
    · rw [Ix.request, hl]; simp
  · refine ⟨A ++ e :: B, ?_, ?_, ?_, fun y => ?_, ?_, ?_, ?_⟩
    · simp only [placeToPage, preparePage, Ix.request, hl, Bool.false_eq_true, if_false, Nat.add_sub_cancel]
      rw [List.map_append]
      have h2 : (A.map leafT ++ B.map leafT).insertIdx A.length (leafT e) = A.map leafT ++ leafT e :: B.map leafT := by
        exact insertIdx_mid _ _ _ _ (by simp)
      rw [h2, List.map_append, List.map_cons]
    · simp only [Expected, Ix.request, hl, Bool.false_eq_true, if_false, Nat.add_sub_cancel, List.map_append, List.map_cons]
      have e1 : ((A.map leafT) ++ B.map leafT).take A.length = A.map leafT := by
        rw [List.take_append_of_le_length (by simp), List.take_of_length_le (by simp)]
      have e2 : ((A.map leafT) ++ B.map leafT).drop A.length = B.map leafT := by
        rw [List.drop_append]; simp
      rw [e1, e2]
    · obtain ⟨s1, s2, s3⟩ := List.pairwise_append.1 hs
      refine List.pairwise_append.2 ⟨s1, List.pairwise_cons.2 ⟨fun b hb => hB b hb, s2⟩, fun a ha b hb => ?_⟩
      rcases List.mem_cons.1 hb with rfl | hb
      · exact OrientedCmp.lt_of_gt (hA a ha)
      · exact s3 a ha b hb
    · simp only [Upd, Bool.false_eq_true, if_false, List.mem_append, List.mem_cons, List.not_mem_nil, or_false, forall_eq]
      constructor
      · rintro (h | h | h)
        · exact Or.inr ⟨Or.inl h, by rw [hA y h]; decide⟩
        · exact Or.inl h
        · exact Or.inr ⟨Or.inr h, by rw [hB y h]; decide⟩
      · rintro (h | ⟨h | h, h2⟩)
        · exact Or.inr (Or.inl h)
        · exact Or.inl h
        · exact Or.inr (Or.inr h)
    · simp only [replacedSpace, Ix.request, hl, Bool.false_eq_true, if_false, List.map_append, List.map_cons, used_append, used_cons]
      omega
    · rw [hl]; omega
    · rw [Ix.request, hl]; simp

/-- Entries that fit on a leaf. -/
structure LeafOK (ix : Ix V) (its : List (Ent V)) : Prop where
  small : ∀ e ∈ its, e.size ≤ maxTuple
  inner : ∀ e ∈ its, ix.innerSize e ≤ maxTuple
  fit : used (its.map leafT) ≤ entryCap

/-- Entries that may be inserted. -/
def TupleOK (ix : Ix V) (e : Ent V) : Prop := e.size ≤ maxTuple ∧ ix.innerSize e ≤ maxTuple

/-- Interior pages. -/
def InnerFit (ix : Ix V) (D : List (Ent V × Nat)) : Prop := used (D.map ix.innerT) ≤ entryCap ∧ ∀ d ∈ D, ix.innerSize d.1 ≤ maxTuple

def KeyFit (ix : Ix V) (e : Ent V) : Prop := ix.innerSize e ≤ maxTuple

theorem entryLeafLaws (ix : Ix V) [Inhabited V] [∀ n, TransCmp (ix.cmpK n)] :
    LeafLaws ix.ops false (LeafOK ix) (fun l => ∀ e ∈ l, TupleOK ix e) (KeyFit ix) where
  keys := fun its h e he => h.inner e he
  rest := fun l k h e he => h e (List.mem_of_mem_drop he)
  found := by
    intro its e _ _ hs _
    show (ix.locate its e).1 = true ↔ _
    rcases spot ix hs e with ⟨A, B, t, rfl, hl, he⟩ | ⟨A, B, rfl, hl, hA, hB⟩
    · rw [hl]
      exact ⟨fun _ => ⟨t, by simp, OrientedCmp.eq_symm (cmp := ix.cmp) he⟩, fun _ => rfl⟩
    · rw [hl]
      simp only [Bool.false_eq_true, false_iff, not_exists, not_and]
      intro i hi h
      have h := OrientedCmp.eq_symm (cmp := ix.cmp) h
      rcases List.mem_append.1 hi with hi | hi
      · rw [hA i hi] at h; cases h
      · rw [hB i hi] at h; cases h
  place := by
    intro its hi e es hP hs _ hX hroom hle hold
    obtain ⟨l, h1, h2, h3, h4, h5, -, -⟩ := spot_list ix hs e
    have hpl : ix.ops.place its hi (e :: es) = (l, es) := by
      show ((placeToPage true (its.map leafT) (ix.locate its e).2 (ix.request its e)).map ETuple.key, es) = _
      rw [h1, leafT_key]
    rw [hpl]
    have hmem : ∀ y ∈ l, y = e ∨ y ∈ its := by
      intro y hy
      rcases (h4 y).1 hy with h | ⟨h, -⟩
      · simp at h; exact Or.inl h
      · exact Or.inr h
    refine ⟨1, by omega, by simp, rfl, ⟨?_, ?_, ?_⟩, h3, ?_, fun y => h4 y⟩
    · intro y hy
      rcases hmem y hy with rfl | h
      · exact (hX y (by simp)).1
      · exact hP.small y h
    · intro y hy
      rcases hmem y hy with rfl | h
      · exact (hX y (by simp)).2
      · exact hP.inner y h
    · have hr : enoughSpace entryCap (its.map leafT) (ix.locate its e).2 (ix.request its e) = true := hroom
      have hr := of_decide_eq_true hr
      simp only [pageFree] at hr
      have hE : (ix.request its e).entry = leafT e := rfl
      rw [hE] at hr
      have := hP.fit
      show used (l.map leafT) ≤ entryCap
      omega
    · intro b hb y hy
      rcases hmem y hy with rfl | h
      · exact hle b hb
      · exact hold b hb y h
  cut := by
    intro its e es hP hs _ hX hroom _
    obtain ⟨l, h1, h2, h3, h4, h5, h6, h7⟩ := spot_list ix hs e
    have hr : enoughSpace entryCap (its.map leafT) (ix.locate its e).2 (ix.request its e) = false := hroom
    obtain ⟨s, s1, s2⟩ := C16_leaf_split (its.map leafT) (ix.locate its e).2 (ix.request its e) h6 h7 hP.fit (by
      intro t ht
      obtain ⟨y, hy, rfl⟩ := List.mem_map.1 ht
      exact hP.small y hy) (hX e (by simp)).1 hr
    rw [h2] at s2
    have s1' : splitPage entryCap true (its.map leafT) (ix.locate its e).2 (ix.request its e) = some s := s1
    have hcut : ix.ops.cut its (e :: es) = (s.left.map ETuple.key, s.right.map ETuple.key, es) := by
      show (match splitPage entryCap true (its.map leafT) (ix.locate its e).2 (ix.request its e) with
        | some s => (s.left.map ETuple.key, s.right.map ETuple.key, es)
        | none => (its, [], e :: es)) = _
      rw [s1']
    have hl : s.left.map ETuple.key ++ s.right.map ETuple.key = l := by
      rw [← List.map_append, s2.all, leafT_key]
    have hback : ∀ m : List (ETuple (Ent V)), (∀ t ∈ m, t ∈ l.map leafT) → (m.map ETuple.key).map leafT = m := by
      intro m hm
      rw [List.map_map]
      conv_rhs => rw [← List.map_id m]
      refine List.map_congr_left (fun t ht => ?_)
      obtain ⟨y, -, rfl⟩ := List.mem_map.1 (hm t ht)
      rfl
    have hbl := hback s.left (fun t ht => by rw [← s2.all]; simp [ht])
    have hbr := hback s.right (fun t ht => by rw [← s2.all]; simp [ht])
    have hmem : ∀ y ∈ l, TupleOK ix y := by
      intro y hy
      rcases (h4 y).1 hy with h | ⟨h, -⟩
      · simp at h; subst h; exact hX _ (by simp)
      · exact ⟨hP.small y h, hP.inner y h⟩
    rw [hcut]
    refine ⟨1, by omega, by simp, rfl, ?_, ?_, ⟨?_, ?_, ?_⟩, ⟨?_, ?_, ?_⟩, ?_, ?_, fun _ => rfl⟩
    · simpa using s2.left
    · simpa using s2.right
    · intro y hy; exact (hmem y (by rw [← hl]; exact List.mem_append_left _ hy)).1
    · intro y hy; exact (hmem y (by rw [← hl]; exact List.mem_append_left _ hy)).2
    · show used ((s.left.map ETuple.key).map leafT) ≤ _
      rw [hbl]; exact s2.fitsLeft
    · intro y hy; exact (hmem y (by rw [← hl]; exact List.mem_append_right _ hy)).1
    · intro y hy; exact (hmem y (by rw [← hl]; exact List.mem_append_right _ hy)).2
    · show used ((s.right.map ETuple.key).map leafT) ≤ _
      rw [hbr]; exact s2.fitsRight
    · show SSorted ix.cmp (s.left.map ETuple.key ++ s.right.map ETuple.key)
      rw [hl]; exact h3
    · intro y
      show y ∈ s.left.map ETuple.key ++ s.right.map ETuple.key ↔ _
      rw [hl, h4]
      rfl

theorem addDown_used (ix : Ix V) (D : List (Ent V × Nat)) (off : Nat) (kk : Ent V) (c r : Nat) (h1 : 1 ≤ off) (h2 : off ≤ D.length) :
    used ((addDown D off kk c r).map ix.innerT) = used (D.map ix.innerT) + (ix.innerSize kk + 4) ∧
      (∀ d ∈ addDown D off kk c r, d.1 = kk ∨ ∃ d' ∈ D, d.1 = d'.1) ∧ (addDown D off kk c r).length = D.length + 1 := by
  obtain ⟨A, d, B, rfl, rfl⟩ : ∃ A d B, D = A ++ d :: B ∧ off = A.length + 1 := by
    have hlt : off - 1 < D.length := by omega
    refine ⟨D.take (off - 1), D[off - 1], D.drop off, ?_, by rw [List.length_take]; omega⟩
    have := List.drop_eq_getElem_cons hlt
    rw [Nat.sub_add_cancel h1] at this
    rw [← this, List.take_append_drop]
  rw [addDown_eq]
  refine ⟨?_, ?_, by simp; omega⟩
  · simp only [List.map_append, List.map_cons, used_append, used_cons]
    have e1 : (ix.innerT (kk, c)).space = ix.innerSize kk + 4 := rfl
    have e2 : (ix.innerT (d.1, r)).space = (ix.innerT d).space := rfl
    omega
  · intro y hy
    simp only [List.mem_append, List.mem_cons] at hy
    rcases hy with h | h | h | h
    · exact Or.inr ⟨y, by simp [h], rfl⟩
    · subst h; exact Or.inl rfl
    · subst h; exact Or.inr ⟨d, by simp, rfl⟩
    · exact Or.inr ⟨y, by simp [h], rfl⟩

theorem entryInnerLaws (ix : Ix V) [Inhabited V] [∀ n, TransCmp (ix.cmpK n)] : InnerLaws ix.ops (InnerFit ix) (KeyFit ix) where
  zero := by show (0 : Nat) ≤ maxTuple; omega
  rk := by
    intro b its D hb hi hD
    show KeyFit ix (((its.getLast?).or (D.getLast?.map Prod.fst)).getD b)
    cases h : its.getLast? with
    | some e => exact hi e (List.mem_of_getLast? h)
    | none =>
      cases h' : D.getLast? with
      | some d => exact hD d (List.mem_of_getLast? h')
      | none => exact hb
  keys := fun D h d hd => h.2 d hd
  room := by
    intro D off kk c r hD hK hroom h1 h2
    obtain ⟨u1, u2, -⟩ := addDown_used ix D off kk c r h1 h2
    have hr : enoughSpace entryCap (D.map ix.innerT) 1 ⟨ix.innerT (kk, 0), false, none⟩ = true := hroom
    have hr := of_decide_eq_true hr
    simp only [pageFree, replacedSpace, Bool.false_eq_true, if_false] at hr
    have e1 : (ix.innerT (kk, 0)).space = ix.innerSize kk + 4 := rfl
    rw [e1] at hr
    refine ⟨by rw [u1]; omega, fun d hd => ?_⟩
    rcases u2 d hd with h | ⟨d', hd', h⟩
    · rw [h]; exact hK
    · rw [h]; exact hD.2 d' hd'
  split := by
    intro rm D off kk c r hD hK hroom h1 h2
    obtain ⟨u1, u2, u3⟩ := addDown_used ix D off kk c r h1 h2
    have hr : enoughSpace entryCap (D.map ix.innerT) 1 ⟨ix.innerT (kk, 0), false, none⟩ = false := hroom
    have hr := of_decide_eq_false hr
    simp only [pageFree, replacedSpace, Bool.false_eq_true, if_false] at hr
    have e1 : (ix.innerT (kk, 0)).space = ix.innerSize kk + 4 := rfl
    rw [e1] at hr
    set E := addDown D off kk c r with hE
    have hKK : ix.innerSize kk ≤ maxTuple := hK
    have hall : ∀ d ∈ E, ix.innerSize d.1 ≤ maxTuple := by
      intro d hd
      rcases u2 d hd with h | ⟨d', hd', h⟩
      · rw [h]; exact hK
      · rw [h]; exact hD.2 d' hd'
    have hc : pageCap = entryCap := rfl
    have hm : maxItemSize = maxTuple := rfl
    obtain ⟨-, g⟩ := entry_split_core (E.map ix.innerT) (by
      intro t ht
      obtain ⟨d, hd, rfl⟩ := List.mem_map.1 ht
      exact hall d hd) (by rw [u1, hc]; omega) (by rw [u1, hc, hm]; have := hD.1; omega)
    have hsep : ix.ops.sep rm E = (distribute (used (E.map ix.innerT) / 2) 0 (E.map ix.innerT)).1.length := rfl
    have ga := g.all
    have gl := g.left
    have gr := g.right
    have fl := g.fitsLeft
    have fr := g.fitsRight
    simp only at ga gl gr fl fr
    rw [hsep]
    generalize (distribute (used (E.map ix.innerT) / 2) 0 (E.map ix.innerT)).1 = L at *
    generalize (distribute (used (E.map ix.innerT) / 2) 0 (E.map ix.innerT)).2 = R at *
    have hlen : L.length + R.length = E.length := by
      have := congrArg List.length ga
      simpa using this
    have hL : (E.take L.length).map ix.innerT = L := by
      rw [List.map_take, ← ga]; simp
    have hR : (E.drop L.length).map ix.innerT = R := by
      rw [List.map_drop, ← ga]; simp
    have p1 := List.length_pos_iff.2 gl
    have p2 := List.length_pos_iff.2 gr
    refine ⟨by omega, by omega, ⟨?_, fun d hd => hall d (List.mem_of_mem_take hd)⟩, ⟨?_, fun d hd => hall d (List.mem_of_mem_drop hd)⟩⟩
    · rw [hL]; exact fl
    · rw [hR]; exact fr
  root := by
    intro k1 k2 l r h1 h2
    have h1' : ix.innerSize k1 ≤ maxTuple := h1
    have h2' : ix.innerSize k2 ≤ maxTuple := h2
    have e1 : maxTuple = 2712 := by decide
    have e2 : entryCap = 8152 := rfl
    refine ⟨?_, fun d hd => ?_⟩
    · simp only [List.map_cons, List.map_nil, used_cons, used_nil]
      have : (ix.innerT (k1, l)).space = ix.innerSize k1 + 4 := rfl
      have : (ix.innerT (k2, r)).space = ix.innerSize k2 + 4 := rfl
      omega
    · simp only [List.mem_cons, List.not_mem_nil, or_false] at hd
      rcases hd with rfl | rfl
      · exact h1
      · exact h2

variable {K : Type} [LinearOrder K]

/-- entryLocateEntry chooses a downlink that leads to the key. -/
theorem locateEntry_ok (ix : Ix V) [Inhabited V] {key : Ent V → K} (hk : KeyOf ix.cmp key) : LocateOK ix.ops key true := by
  intro rm keys x hne hle
  have hlen : 1 ≤ keys.length := List.length_pos_iff.2 hne
  have hN : (if keys.length = keys.length ∧ rm = true then Ordering.lt else cmpTuple ix.cmp keys x keys.length) ≠ .gt := by
    cases rm with
    | true => simp
    | false =>
      simp only [Bool.false_eq_true, and_false, if_false, cmpTuple]
      have hb : keys.length - 1 < keys.length := by omega
      rw [List.getElem?_eq_getElem hb]
      have hz := hle rfl rfl keys[keys.length - 1] (by rw [List.getLast?_eq_getElem?, List.getElem?_eq_getElem hb])
      simp only
      rw [Ne, hk.gt, _root_.not_lt]
      exact hz
  obtain ⟨h1, h2, h3⟩ := searchLoop_end (fun mid => if mid = keys.length ∧ rm then .lt else cmpTuple ix.cmp keys x mid) keys.length
    hN (keys.length + 1) 1 (keys.length + 1) (by omega) (by omega) hlen (by omega) (by omega) (Or.inl rfl)
  generalize hr : (searchLoop (fun mid => if mid = keys.length ∧ rm then .lt else cmpTuple ix.cmp keys x mid) (keys.length + 1) 1
    (keys.length + 1)).2 = r at h1 h2 h3
  have hloc : ix.ops.locate rm keys x = r := hr
  refine ⟨r - 1, by rw [hloc]; omega, by omega, ?_⟩
  rcases h3 with h3 | h3 | h3
  · by_cases hl : r = keys.length ∧ rm = true
    · rw [if_pos hl] at h3; simp at h3
    · rw [if_neg hl] at h3
      have hb : r - 1 < keys.length := by omega
      simp only [cmpTuple, List.getElem?_eq_getElem hb] at h3
      refine Or.inr (Or.inr ⟨((hk.eq _ _).1 h3).symm, ?_⟩)
      by_cases hl' : r = keys.length
      · right
        cases hrm : rm with
        | false => rfl
        | true => exact absurd ⟨hl', hrm⟩ hl
      · left; omega
  · exact Or.inl (by omega)
  · by_cases h0 : r = 1
    · exact Or.inl (by omega)
    · rw [if_neg (by omega)] at h3
      have hb : r - 1 - 1 < keys.length := by omega
      simp only [cmpTuple, List.getElem?_eq_getElem hb] at h3
      exact Or.inr (Or.inl ⟨r - 1 - 1, hb, by omega, (hk.gt _ _).1 h3⟩)

end Rum.Index
