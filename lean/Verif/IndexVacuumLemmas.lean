import Verif.IndexVacuum
import Verif.EntryTreeInsert
/-
VACUUM of the whole index under its invariant.
-/
namespace Rum.Index
open Rum Rum.Codec Rum.Leaf Rum.Entry Rum.Tree Rum.Props Rum.Props.PostingTree Rum.Props.VacuumTree Std

/-! ### A leaf whose items are replaced by items with the same keys -/

section
variable {α K : Type} [LinearOrder K] {key : α → K} {strict : Bool} {s : Store α} {root : Nat} {G : Ghost} {IOK : List (α × Nat) → Prop}
  {KOK : α → Prop} {POK : List α → Prop} {C : Prop}

theorem leaf_swap (H : Good C key strict IOK KOK POK s root G) (hB : BoundIn key (leafs key s G)) {b : Nat} (hb : b ∈ G.lv 0) {its : List α}
    (hk : its.map key = (s.page b).items.map key) (hP : POK its) :
    Good C key strict IOK KOK POK (s.set b { s.page b with items := its }) root G ∧
      BoundIn key (leafs key (s.set b { s.page b with items := its }) G) := by
  have W := H.weak
  obtain ⟨A, B, e⟩ := List.append_of_mem hb
  have hmem : ∀ i ∈ its, ∃ j ∈ (s.page b).items, key j = key i := by
    intro i hi
    have : key i ∈ (s.page b).items.map key := hk ▸ List.mem_map.2 ⟨i, hi, rfl⟩
    obtain ⟨j, hj, he⟩ := List.mem_map.1 this
    exact ⟨j, hj, he⟩
  have hmem' : ∀ i ∈ (s.page b).items, ∃ j ∈ its, key j = key i := by
    intro i hi
    have : key i ∈ its.map key := hk ▸ List.mem_map.2 ⟨i, hi, rfl⟩
    obtain ⟨j, hj, he⟩ := List.mem_map.1 this
    exact ⟨j, hj, he⟩
  have hso : its.Pairwise (fun i j => key i < key j) := by
    have := W.order.sorted b hb
    rw [← List.pairwise_map (f := key) (R := fun a b => a < b)] at this ⊢
    rw [hk]; exact this
  have W' : Weak key strict (s.set b { s.page b with items := its }) root G := by
    refine W.leaf_change e hso (fun i hi => ?_) (fun c hc i hi => ?_)
    · obtain ⟨j, hj, he⟩ := hmem i hi
      rw [← he]; exact W.order.le b hb j hj
    · obtain ⟨j, hj, he⟩ := hmem i hi
      rw [← he]
      have := W.order.pair
      rw [e] at this
      exact ((List.pairwise_append.1 this).2.2 c hc b (by simp)).2 j hj
  have hpg : ∀ c, (s.set b { s.page b with items := its }).page c = { s.page c with items := if c = b then its else (s.page c).items } := by
    intro c
    rw [Store.set_page]
    by_cases h : c = b
    · subst h; simp
    · simp [h]
  have hhi : ∀ c, hiP key ((s.set b { s.page b with items := its }).page c) = hiP key (s.page c) := fun c => by rw [hpg c]; rfl
  refine ⟨⟨W', H.complete, ⟨fun k hk' c hc => ?_, fun k hk' c hc => ?_⟩, fun p hp => ?_⟩, fun p hp => ?_⟩
  · rw [hpg c]; exact H.sized.inner k hk' c hc
  · rw [hpg c]; exact H.sized.bounds k hk' c hc
  · obtain ⟨c, hc, rfl⟩ := List.mem_map.1 hp
    rw [hpg c]
    simp only
    split
    · exact hP
    · exact H.fit ((s.page c).items, hiP key (s.page c)) (List.mem_map.2 ⟨c, hc, rfl⟩)
  · obtain ⟨c, hc, rfl⟩ := List.mem_map.1 hp
    simp only [hhi]
    rcases hB ((s.page c).items, hiP key (s.page c)) (List.mem_map.2 ⟨c, hc, rfl⟩) with h | ⟨i, hi, he⟩
    · refine Or.inl ⟨h.1, fun h0 => ?_⟩
      have hl : ∀ t : Store α, (leafs key t G).length = (leafs key s G).length := fun t => by simp [leafs]
      rw [hl]
      apply h.2
      rw [hpg c] at h0
      simp only at h0 ⊢
      split at h0
      · next h' =>
        subst h'
        rw [h0] at hk
        exact List.map_eq_nil_iff.1 hk.symm
      · exact h0
    · right
      rw [hpg c]
      simp only at hi he ⊢
      split
      · next h =>
        subst h
        obtain ⟨j, hj, hje⟩ := hmem' i hi
        exact ⟨j, hj, by rw [hje]; exact he⟩
      · exact ⟨i, hi, he⟩

end

/-! ### Shifting an encoded list -/

theorem writeDatum_shift (a : Attr) (d : Datum) (ht : d.Typed a) (m s k : Nat) (hm : (if a.byval then 1 else a.align) ∣ m) :
    writeDatum a (s + m * k) d = writeDatum a s d := by
  unfold writeDatum
  by_cases hb : a.byval = true
  · simp only [hb, if_true]
  · have hb' : a.byval = false := by simpa using hb
    simp only [hb', Bool.false_eq_true, if_false] at hm ⊢
    have hp : 0 < a.align → pad a (s + m * k) = pad a s := by
      intro h0
      unfold pad
      obtain ⟨j, rfl⟩ := hm
      rw [Nat.mul_assoc, alignUp_shift _ _ _ h0]
      congr 1
      omega
    by_cases h1 : a.len = -1
    · simp only [h1, if_true]
      cases d with
      | varlena hd p =>
        have h0 : 0 < a.align := ht.2.2.1
        rw [hp h0]
      | _ => rfl
    · simp only [h1, if_false]
      by_cases h2 : a.len = -2
      · simp only [h2, if_true]
      · simp only [h2, if_false]
        cases d with
        | fixedRef bs =>
          have h0 : 0 < a.align := ht.2.2.1
          rw [hp h0]
        | _ => rfl

theorem placeItem_shift (c : Cfg) (it : Item Datum) (hit : ItemOK c it) (prev : Iptr) (m s k : Nat) (hm : padOf c ∣ m) :
    placeItem c (s + m * k) it prev = placeItem c s it prev := by
  unfold placeItem
  cases hi : it.info with
  | none => rfl
  | some d =>
    obtain ⟨a, ha, ht⟩ := hit.2.2 d hi
    simp only [ha]
    rw [show s + m * k + (writeIptr c.alt it.iptr prev (some d).isNone).length = s + (writeIptr c.alt it.iptr prev (some d).isNone).length + m * k by omega,
      writeDatum_shift a d ht m _ k (by simpa only [padOf, ha] using hm)]

theorem placeList_shift (c : Cfg) (m k : Nat) (hm : padOf c ∣ m) (l : List (Item Datum)) :
    ∀ (s : Nat) (prev : Iptr), (∀ it ∈ l, ItemOK c it) → placeList c (s + m * k) prev l = placeList c s prev l := by
  induction l with
  | nil => intros; rfl
  | cons a l ih =>
    intro s prev h
    simp only [placeList]
    rw [placeItem_shift c a (h a (by simp)) prev m s k hm]
    cases placeItem c s a prev with
    | none => rfl
    | some b =>
      simp only
      rw [show s + m * k + b.length = s + b.length + m * k by omega, ih _ _ (fun x hx => h x (by simp [hx]))]

/-- rumVacuumPostingList on an encoded list gives the encoding of the live items. -/
theorem vacuumList_place (c : Cfg) (dead : Iptr → Bool) (its : List (Item Datum)) (src : List Nat) (hok : ∀ it ∈ its, ItemOK c it)
    (hsrc : placeList c 0 ⟨0, 0⟩ its = some src) :
    ∃ out, vacuumPostingList c dead src its.length = some ((surv dead its).length, out) ∧
      (((surv dead its).length = its.length ∧ out = none) ∨
        ((surv dead its).length < its.length ∧ ∃ b, out = some b ∧ placeList c 0 ⟨0, 0⟩ (surv dead its) = some b)) := by
  obtain ⟨s', h1, h2, h3⟩ := vacLoop_correct c dead its [] [] src ⟨0, 0, 0, ⟨0, 0⟩, ⟨0, 0⟩, none⟩
    (by simpa using hok) rfl (by simpa [Codec.lastIptr] using hsrc) rfl rfl rfl rfl rfl (Or.inl ⟨rfl, rfl⟩)
  simp only [List.nil_append] at h1 h2 h3
  exact ⟨s'.dst, by simp [vacuumPostingList, h1, h2], h3⟩

variable {V : Type}

/-! ### One tuple, one page -/

/-- The live items. -/
abbrev live (dead : Iptr → Bool) (l : List (Item Datum)) : List (Item Datum) := l.filter (fun y => !dead y.iptr)

/-- What VACUUM may do to a tuple of the entry tree. -/
structure TupleVac (C : Prop) (ix : Ix V) (M : Lim) (dead : Iptr → Bool) (st : State V) (e e' : Ent V) : Prop where
  key : e'.key = e.key
  size : e'.size ≤ e.size
  ok : EntOK C ix M st e'
  inner : ix.innerSize e' ≤ maxTuple
  tree : ∀ t, e.post = .tree t ∨ e'.post = .tree t → e' = e
  list : ∀ d n, e.post = .list d n → ix.readTuple e' = live dead (ix.readTuple e)

theorem listOK_live {x : Ctx} {M : Lim} {dead : Iptr → Bool} {l : List (Item Datum)} (h : ListOK x M l) : ListOK x M (live dead l) :=
  ⟨h.sorted.sublist List.filter_sublist, fun it hi => h.ok it (List.mem_filter.1 hi).1⟩

theorem TupleVac.refl {C : Prop} {ix : Ix V} {M : Lim} {dead : Iptr → Bool} {st : State V} {e : Ent V} (h : EntOK C ix M st e) (hs : ix.innerSize e ≤ maxTuple)
    (hl : ∀ d n, e.post = .list d n → live dead (ix.readTuple e) = ix.readTuple e) : TupleVac C ix M dead st e e :=
  ⟨rfl, _root_.le_refl _, h, hs, fun _ _ => rfl, fun d n hp => (hl d n hp).symm⟩

theorem vacTuple_spec {C : Prop} {ix : Ix V} {M : Lim} (hc : ColsOK ix M) (hal : ∀ k, 8 ∣ ix.keySize k) (dead : Iptr → Bool) {st : State V} {e : Ent V}
    (h : EntOK C ix M st e) (hs : ix.innerSize e ≤ maxTuple) :
    ∃ r, ix.vacTuple dead e = some r ∧ TupleVac C ix M dead st e (r.getD e) := by
  have hI := hc.infos e.key.attnum
  cases hp : e.post with
  | tree t =>
    refine ⟨none, by unfold Ix.vacTuple; rw [hp], TupleVac.refl h hs (fun d n h' => ?_)⟩
    rw [hp] at h'; cases h'
  | list data n =>
    obtain ⟨R, r1, r2, r3, r4, r5⟩ := h.list data n hp
    have hread := EntOK.rows_list hp r1 r2 r3
    have hok : ∀ it ∈ R, ItemOK (ix.ctx e.key.attnum).cfg it := fun it hi => (r1.ok it hi).ok
    obtain ⟨q, hq⟩ := hal e.key
    have hpad := (hc.sizes e.key.attnum).align
    have hsh : ∀ l : List (Item Datum), (∀ it ∈ l, ItemOK (ix.ctx e.key.attnum).cfg it) →
        placeList (ix.ctx e.key.attnum).cfg (ix.keySize e.key) ⟨0, 0⟩ l = placeList (ix.ctx e.key.attnum).cfg 0 ⟨0, 0⟩ l := by
      intro l hl
      have := placeList_shift (ix.ctx e.key.attnum).cfg 8 q hpad l 0 ⟨0, 0⟩ hl
      rwa [Nat.zero_add, ← hq] at this
    have hcs : ∀ l : List (Item Datum), (∀ it ∈ l, ItemOK (ix.ctx e.key.attnum).cfg it) →
        checkList (ix.ctx e.key.attnum).cfg ⟨0, 0⟩ (ix.keySize e.key) l = checkList (ix.ctx e.key.attnum).cfg ⟨0, 0⟩ 0 l + ix.keySize e.key := by
      intro l hl
      have := checkList_shift (ix.ctx e.key.attnum).cfg 8 q hpad l ⟨0, 0⟩ 0 hl
      rwa [Nat.zero_add, ← hq] at this
    obtain ⟨out, v1, v2⟩ := vacuumList_place (ix.ctx e.key.attnum).cfg dead R data hok (by rw [← hsh R hok]; exact r2)
    have hlen : (surv dead R).length ≤ R.length := List.length_filter_le _ _
    have stay : ∀ (hvt : ix.vacTuple dead e = some none) (hl : surv dead R = R),
        ∃ r, ix.vacTuple dead e = some r ∧ TupleVac C ix M dead st e (r.getD e) := by
      intro hvt hl
      refine ⟨none, hvt, TupleVac.refl h hs (fun d n' h' => ?_)⟩
      rw [hread]; exact hl
    by_cases hn : n > 0
    · rcases v2 with ⟨w1, w2⟩ | ⟨w1, b, w2, w3⟩
      · refine stay ?_ (surv_eq_of_length dead R w1)
        unfold Ix.vacTuple
        rw [hp]
        simp only
        rw [if_pos hn, r3, v1]
        simp only
        rw [if_neg (by omega)]
      · have hokS : ∀ it ∈ surv dead R, ItemOK (ix.ctx e.key.attnum).cfg it := fun it hi => hok it (List.mem_filter.1 hi).1
        obtain ⟨b', hb', hbl⟩ := placeList_ok (ix.ctx e.key.attnum).cfg (surv dead R) 0 ⟨0, 0⟩ hokS
        rw [w3, Option.some.injEq] at hb'
        subst hb'
        have hb0 : (if (surv dead R).length > 0 then b.length else 0) = b.length ∧ (if (surv dead R).length > 0 then b else []) = b := by
          by_cases h0 : (surv dead R).length > 0
          · rw [if_pos h0, if_pos h0]; exact ⟨rfl, rfl⟩
          · have : surv dead R = [] := List.length_eq_zero_iff.1 (by omega)
            rw [this] at w3
            simp only [placeList, Option.some.injEq] at w3
            subst w3
            simp
        have hsz : alignUp 8 (ix.keySize e.key + (if (surv dead R).length > 0 then b.length else 0) + catByte e.key) =
            ix.tupleSize e.key (surv dead R) := by
          unfold Ix.tupleSize
          rw [hb0.1, hcs _ hokS]
          congr 1
          omega
        have hle : ix.tupleSize e.key (surv dead R) ≤ ix.tupleSize e.key R := by
          unfold Ix.tupleSize
          refine alignUp_mono 8 _ _ (Nat.add_le_add_right ?_ _)
          refine checkList_filter_le (ix.ctx e.key.attnum).cfg dead R ⟨0, 0⟩ ⟨0, 0⟩ _ _ hok (fun halt => ?_) (Or.inl (Nat.le_refl _))
            (Nat.le_refl _) (fun _ => Or.inl rfl)
          exact Rum.Props.blkSorted_of _ halt _ r1.sorted
        have hform : ix.formBytes e.key b (surv dead R).length = some ⟨e.key, ix.tupleSize e.key (surv dead R), .list b (surv dead R).length⟩ := by
          unfold Ix.formBytes
          simp only [hsz]
          rw [if_neg (by omega), hb0.2]
        have hvt : ix.vacTuple dead e = some (some ⟨e.key, ix.tupleSize e.key (surv dead R), .list b (surv dead R).length⟩) := by
          unfold Ix.vacTuple
          rw [hp]
          simp only
          rw [if_pos hn, r3, v1]
          simp only
          rw [if_pos (by omega), w2]
          simp only [hform, Option.map_some]
        have hpl : placeList (ix.ctx e.key.attnum).cfg (ix.keySize e.key) ⟨0, 0⟩ (surv dead R) = some b := by rw [hsh _ hokS]; exact w3
        refine ⟨_, hvt, ⟨rfl, ?_, ⟨h.key, fun d n' hpp => ?_, fun t hpp => (by cases hpp)⟩, ?_, fun t ht => ?_, fun d n' _ => ?_⟩⟩
        · simp only [Option.getD_some]
          rw [r5]; exact hle
        · simp only [Option.getD_some, Payload.list.injEq] at hpp
          obtain ⟨rfl, rfl⟩ := hpp
          exact ⟨surv dead R, listOK_live r1, hpl, rfl, _root_.le_trans hle r4, rfl⟩
        · show alignUp 8 (ix.keySize e.key) ≤ maxTuple
          have : ix.innerSize e = alignUp 8 (ix.keySize e.key) := by unfold Ix.innerSize; rw [hp]
          rw [← this]; exact hs
        · rcases ht with ht | ht
          · rw [hp] at ht; cases ht
          · cases ht
        · rw [hread]
          exact EntOK.rows_list (ix := ix) (M := M) (e := ⟨e.key, ix.tupleSize e.key (surv dead R), .list b (surv dead R).length⟩) rfl
            (listOK_live r1) hpl rfl
    · refine stay ?_ ?_
      · unfold Ix.vacTuple
        rw [hp]
        simp only
        rw [if_neg hn]
      · have : R = [] := List.length_eq_zero_iff.1 (by omega)
        subst this; rfl

theorem used_le (l l' : List (Ent V)) (h : List.Forall₂ (fun e e' => e'.size ≤ e.size) l l') : used (l'.map leafT) ≤ used (l.map leafT) := by
  induction h with
  | nil => exact _root_.le_refl _
  | cons h _ ih =>
    simp only [List.map_cons, used_cons]
    have : (leafT _).space ≤ (leafT _).space := Nat.add_le_add_right h 4
    omega

theorem vacPage_spec {C : Prop} {ix : Ix V} {M : Lim} (hc : ColsOK ix M) (hal : ∀ k, 8 ∣ ix.keySize k) (dead : Iptr → Bool) {st : State V}
    (es : List (Ent V)) : ∀ (pre : List (Ent V)) (ch : Bool), (∀ e ∈ es, EntOK C ix M st e ∧ ix.innerSize e ≤ maxTuple) →
      used ((pre ++ es).map leafT) ≤ entryCap →
      ∃ es' ch', ix.vacPage dead pre ch es = some (pre ++ es', ch') ∧ List.Forall₂ (TupleVac C ix M dead st) es es' ∧
        used ((pre ++ es').map leafT) ≤ entryCap ∧ (ch' = false → es' = es) := by
  induction es with
  | nil => intro pre ch _ h; exact ⟨[], ch, by simp [Ix.vacPage], .nil, h, fun _ => rfl⟩
  | cons e es ih =>
    intro pre ch hes hfit
    obtain ⟨r, h1, h2⟩ := vacTuple_spec hc hal dead (hes e (by simp)).1 (hes e (by simp)).2
    have hes' : ∀ e ∈ es, EntOK C ix M st e ∧ ix.innerSize e ≤ maxTuple := fun e' h => hes e' (by simp [h])
    rw [Ix.vacPage, h1]
    cases r with
    | none =>
      simp only
      obtain ⟨es', ch', g1, g2, g3, g4⟩ := ih (pre ++ [e]) ch hes' (by simpa using hfit)
      refine ⟨e :: es', ch', by rw [g1]; simp, .cons h2 g2, by simpa using g3, fun h => by rw [g4 h]⟩
    | some e' =>
      simp only
      have hfit' : used ((pre ++ e' :: es).map leafT) ≤ entryCap := by
        refine _root_.le_trans (used_le (pre ++ e :: es) _ ?_) hfit
        have hr : ∀ l : List (Ent V), List.Forall₂ (fun e e' : Ent V => e'.size ≤ e.size) l l := fun l => List.forall₂_same.2 (fun _ _ => Nat.le_refl _)
        exact List.rel_append (R := fun e e' : Ent V => e'.size ≤ e.size) (hr pre) (.cons h2.size (hr es))
      rw [if_pos hfit']
      obtain ⟨es', ch', g1, g2, g3, g4⟩ := ih (pre ++ [e']) true hes' (by simpa using hfit')
      refine ⟨e' :: es', ch', by rw [g1]; simp, .cons h2 g2, by simpa using g3, fun h => ?_⟩
      exfalso
      have : ∀ (l : List (Ent V)) (pre : List (Ent V)) (x : List (Ent V) × Bool), ix.vacPage dead pre true l = some x → x.2 = true := by
        intro l
        induction l with
        | nil => intro pre x hx; simp only [Ix.vacPage, Option.some.injEq] at hx; rw [← hx]
        | cons a l ihl =>
          intro pre x hx
          rw [Ix.vacPage] at hx
          cases hv : ix.vacTuple dead a with
          | none => rw [hv] at hx; cases hx
          | some r =>
            rw [hv] at hx
            cases r with
            | none => exact ihl _ _ hx
            | some a' =>
              simp only at hx
              split at hx
              · exact ihl _ _ hx
              · cases hx
      have := this es _ _ g1
      simp only at this
      rw [h] at this; cases this

end Rum.Index
