import Verif.DataPage
import Verif.LeafPageLemmas
import Verif.Merge
set_option linter.unusedSectionVars false
namespace Rum.Leaf
open Rum Rum.Codec Std

theorem placeItem_alt_prev (c : Cfg) (h : c.alt = true) (off : Nat) (it : Item Datum) (p q : Iptr) :
    placeItem c off it p = placeItem c off it q := by
  simp only [placeItem, writeIptr, h, if_true]

/-- the bytes written so far are the encoding of the list `D` -/
def Written (c : Cfg) (D : List (Item Datum)) (s : MergeSt) : Prop :=
  placeList c 0 ⟨0, 0⟩ D = some s.out ∧ (c.alt = false → s.iptr = lastIptr ⟨0, 0⟩ D)

theorem Written.place {c : Cfg} {D : List (Item Datum)} {s : MergeSt} (h : Written c D s) (it : Item Datum)
    (hit : ItemOK c it) : ∃ b, placeItem c s.out.length it s.iptr = some b ∧
      placeList c 0 ⟨0, 0⟩ (D ++ [it]) = some (s.out ++ b) := by
  obtain ⟨h1, h2⟩ := h
  have e : placeItem c s.out.length it s.iptr = placeItem c s.out.length it (lastIptr ⟨0, 0⟩ D) := by
    cases ha : c.alt with
    | true => exact placeItem_alt_prev c ha _ _ _ _
    | false => rw [h2 ha]
  obtain ⟨b, hb, _⟩ := placeItem_ok c s.out.length it (lastIptr ⟨0, 0⟩ D) hit
  exact ⟨b, by rw [e, hb], placeList_snoc c D it 0 ⟨0, 0⟩ s.out b h1 (by simpa using hb)⟩

theorem Written.copy {c : Cfg} {D : List (Item Datum)} {s : MergeSt} (h : Written c D s) (o : Item Datum)
    (ho : ItemOK c o) : ∃ b, copyOld c s o = some { s with out := s.out ++ b, iptr := o.iptr } ∧
      Written c (D ++ [o]) { s with out := s.out ++ b, iptr := o.iptr } := by
  obtain ⟨b, hb, hp⟩ := h.place o ho
  exact ⟨b, by simp [copyOld, hb], hp, fun _ => (lastIptr_snoc _ D o).symm⟩

theorem Written.insert {c : Cfg} {D : List (Item Datum)} {s : MergeSt} (h : Written c D s) (n : Item Datum)
    (ho : ItemOK c n) : ∃ b, insertNew c s n = some { s with out := s.out ++ b, iptr := n.iptr, free := s.free - newItemSize c s n, ins := s.ins + 1 } ∧
      Written c (D ++ [n]) { s with out := s.out ++ b, iptr := n.iptr, free := s.free - newItemSize c s n, ins := s.ins + 1 } := by
  obtain ⟨b, hb, hp⟩ := h.place n ho
  exact ⟨b, by simp [insertNew, hb], hp, fun _ => (lastIptr_snoc _ D n).symm⟩

/-- why the loop stopped taking new items -/
def Stopped (x : Ctx) (rb : Option (Item Datum)) (s' : MergeSt) (rest : List (Item Datum)) : Prop :=
  rest = [] ∨ s'.stop = true ∨ ∃ b n ns, rb = some b ∧ rest = n :: ns ∧ x.cmp b n = .lt

theorem merge_nil_left {α : Type} (cmp : α → α → Ordering) (b : List α) : mergeItems cmp [] b = b := by
  rw [mergeItems]

theorem merge_nil_right {α : Type} (cmp : α → α → Ordering) (b : List α) : mergeItems cmp b [] = b := by
  cases b <;> rw [mergeItems]; simp

theorem mergeLoop_ok (x : Ctx) [TransCmp x.cmpV] (rb : Option (Item Datum)) (old new : List (Item Datum)) (s : MergeSt) :
    ∀ D, (∀ it ∈ old, ItemOK x.cfg it) → (∀ it ∈ new, ItemOK x.cfg it) → Written x.cfg D s →
    ∃ s' k, mergeLoop x rb old new s = some (s', new.drop k) ∧ k ≤ new.length ∧
      Written x.cfg (D ++ mergeItems x.cmp (new.take k) old) s' ∧
      s'.ins + old.length = s.ins + (mergeItems x.cmp (new.take k) old).length ∧
      Stopped x rb s' (new.drop k) ∧ (s.stop = true → k = 0 ∧ s'.stop = true) := by
  have htr : TransCmp x.cmp := cmpItem_trans _ _
  have hcopy_nil : ∀ (os : List (Item Datum)) (o : Item Datum) (ns : List (Item Datum)) (k : Nat),
      (∀ n nn, ns = n :: nn → x.cmp o n = .lt ∨ k = 0) →
      mergeItems x.cmp (ns.take k) (o :: os) = o :: mergeItems x.cmp (ns.take k) os := by
    intro os o ns k h
    cases k with
    | zero => simp [merge_nil_left]
    | succ k =>
      cases ns with
      | nil => simp [merge_nil_left]
      | cons n nn =>
        have h1 : x.cmp o n = .lt := by
          rcases h n nn rfl with h | h
          · exact h
          · omega
        have h2 : x.cmp n o = .gt := OrientedCmp.gt_of_lt h1
        rw [List.take_succ_cons, mergeItems]
        simp [h2]
  fun_induction mergeLoop x rb old new s with
  | case1 o os n ns s hstop ih =>
    intro D ho hn hw
    obtain ⟨b, hb1, hb2⟩ := hw.copy o (ho o (by simp))
    obtain ⟨s', k, h1, h2, h3, h4, h5, h6⟩ := ih _ (D ++ [o]) (fun y hy => ho y (by simp [hy])) hn hb2
    obtain ⟨h7, h8⟩ := h6 hstop
    have hm := hcopy_nil os o (n :: ns) k (fun _ _ _ => Or.inr h7)
    refine ⟨s', k, by rw [hb1]; exact h1, h2, by rw [hm]; simpa using h3, ?_, h5, fun _ => ⟨h7, h8⟩⟩
    rw [hm]; simp only [List.length_cons] at *; omega
  | case2 o os n ns s hstop hc ih =>
    intro D ho hn hw
    obtain ⟨b, hb1, hb2⟩ := hw.copy o (ho o (by simp))
    obtain ⟨s', k, h1, h2, h3, h4, h5, h6⟩ := ih _ (D ++ [o]) (fun y hy => ho y (by simp [hy])) hn hb2
    have hm := hcopy_nil os o (n :: ns) k (by intro a _ e; simp at e; exact Or.inl (e.1 ▸ hc))
    refine ⟨s', k, by rw [hb1]; exact h1, h2, by rw [hm]; simpa using h3, ?_, h5, fun h => absurd h hstop⟩
    rw [hm]; simp only [List.length_cons] at *; omega
  | case3 o os n ns s hstop hc ih =>
    intro D ho hn hw
    obtain ⟨b, hb1, hb2⟩ := hw.copy o (ho o (by simp))
    obtain ⟨s', k, h1, h2, h3, h4, h5, h6⟩ := ih _ (D ++ [o]) (fun y hy => ho y (by simp [hy])) (fun y hy => hn y (by simp [hy])) hb2
    have hm : mergeItems x.cmp ((n :: ns).take (k + 1)) (o :: os) = o :: mergeItems x.cmp (ns.take k) os := by
      rw [List.take_succ_cons, mergeItems]; simp [OrientedCmp.eq_symm hc]
    refine ⟨s', k + 1, by rw [hb1]; exact h1, by simpa using h2, by rw [hm]; simpa using h3, ?_, h5, fun h => absurd h hstop⟩
    rw [hm]; simp only [List.length_cons] at *; omega
  | case4 o os n ns s hstop hc hfit ih =>
    intro D ho hn hw
    obtain ⟨b, hb1, hb2⟩ := hw.insert n (hn n (by simp))
    obtain ⟨s', k, h1, h2, h3, h4, h5, h6⟩ := ih _ (D ++ [n]) ho (fun y hy => hn y (by simp [hy])) hb2
    have hm : mergeItems x.cmp ((n :: ns).take (k + 1)) (o :: os) = n :: mergeItems x.cmp (ns.take k) (o :: os) := by
      rw [List.take_succ_cons, mergeItems]; simp [OrientedCmp.lt_of_gt hc]
    refine ⟨s', k + 1, by rw [hb1]; exact h1, by simpa using h2, by rw [hm]; simpa using h3, ?_, h5, fun h => absurd h hstop⟩
    rw [hm]; simp only [List.length_cons] at *; omega
  | case5 o os n ns s hstop hc hfit ih =>
    intro D ho hn hw
    have hw' : Written x.cfg D { s with stop := true } := hw
    obtain ⟨b, hb1, hb2⟩ := hw'.copy o (ho o (by simp))
    obtain ⟨s', k, h1, h2, h3, h4, h5, h6⟩ := ih _ (D ++ [o]) (fun y hy => ho y (by simp [hy])) hn hb2
    obtain ⟨h7, h8⟩ := h6 rfl
    have hm := hcopy_nil os o (n :: ns) k (fun _ _ _ => Or.inr h7)
    refine ⟨s', k, by rw [hb1]; exact h1, h2, by rw [hm]; simpa using h3, ?_, h5, fun _ => ⟨h7, h8⟩⟩
    rw [hm]; simp only [List.length_cons] at *; omega
  | case6 n ns s hstop =>
    intro D ho hn hw
    exact ⟨s, 0, rfl, by simp, by simpa [merge_nil_left] using hw, by simp [merge_nil_left], Or.inr (Or.inl hstop), fun _ => ⟨rfl, hstop⟩⟩
  | case7 n ns s hstop hrb hfit ih =>
    intro D ho hn hw
    obtain ⟨b, hb1, hb2⟩ := hw.insert n (hn n (by simp))
    obtain ⟨s', k, h1, h2, h3, h4, h5, h6⟩ := ih _ (D ++ [n]) ho (fun y hy => hn y (by simp [hy])) hb2
    simp only [merge_nil_right] at *
    refine ⟨s', k + 1, by rw [hb1]; exact h1, by simpa using h2, by simpa using h3, ?_, h5, fun h => absurd h hstop⟩
    simp only [List.length_nil, List.take_succ_cons, List.length_cons] at *; omega
  | case8 n ns s hstop hrb hfit =>
    intro D ho hn hw
    have hw' : Written x.cfg D { s with stop := true } := hw
    exact ⟨_, 0, rfl, by simp, by simpa [merge_nil_left] using hw', by simp [merge_nil_left], Or.inr (Or.inl rfl), fun _ => ⟨rfl, rfl⟩⟩
  | case9 n ns s hstop hrb =>
    intro D ho hn hw
    refine ⟨s, 0, rfl, by simp, by simpa [merge_nil_left] using hw, by simp [merge_nil_left], Or.inr (Or.inr ?_), fun h => absurd h hstop⟩
    cases rb with
    | none => simp at hrb
    | some b => exact ⟨b, n, ns, rfl, rfl, by simpa using hrb⟩
  | case10 o os s ih =>
    intro D ho hn hw
    obtain ⟨b, hb1, hb2⟩ := hw.copy o (ho o (by simp))
    obtain ⟨s', k, h1, h2, h3, h4, h5, h6⟩ := ih _ (D ++ [o]) (fun y hy => ho y (by simp [hy])) hn hb2
    simp only [List.take_nil, merge_nil_left] at *
    refine ⟨s', k, by rw [hb1]; exact h1, h2, by simpa using h3, ?_, h5, h6⟩
    simp only [List.length_cons] at *; omega
  | case11 s =>
    intro D ho hn hw
    exact ⟨s, 0, rfl, by simp, by simpa [merge_nil_left] using hw, by simp [merge_nil_left], Or.inl rfl, fun h => ⟨rfl, h⟩⟩

/-! ### Sizes -/

/-- alignment that can cause padding in a column's additional info -/
def padOf (c : Cfg) : Nat :=
  match c.attr with
  | none => 1
  | some a => if a.byval then 1 else a.align

/-- Alignment that can cause padding before the additional info of one item: none for by-value types and for short
varlenas (1-byte header, or to be converted to it). -/
def padItem (c : Cfg) (it : Item Datum) : Nat :=
  match it.info, c.attr with
  | some (.varlena h p), some a => if h = .short ∨ (packable a && canMakeShort h p) = true then 1 else padOf c
  | some _, some _ => padOf c
  | _, _ => 1

theorem padItem_dvd {c : Cfg} {it : Item Datum} {m : Nat} (h : padOf c ∣ m) : padItem c it ∣ m := by
  unfold padItem
  split
  · split
    · exact Nat.one_dvd _
    · exact h
  · exact h
  · exact Nat.one_dvd _

/-- A storable item that never needs padding. -/
structure Flat (c : Cfg) (it : Item Datum) : Prop where
  ok : ItemOK c it
  pad : padItem c it = 1

theorem Flat.dvd {c : Cfg} {it : Item Datum} (h : Flat c it) (m : Nat) : padItem c it ∣ m := by rw [h.pad]; exact Nat.one_dvd _

theorem alignUp_shift (a s k : Nat) (ha : 0 < a) : alignUp a (s + a * k) = alignUp a s + a * k := by
  unfold alignUp
  rw [show s + a * k + a - 1 = s + a - 1 + a * k by omega, Nat.add_mul_div_left _ _ ha, Nat.add_mul, Nat.mul_comm k a]

theorem infoSize_shift (c : Cfg) (it : Item Datum) (hit : ItemOK c it) (m s k : Nat) (hm : padItem c it ∣ m) :
    infoSize c it (s + m * k) = infoSize c it s + m * k := by
  unfold infoSize
  cases hi : it.info with
  | none => rfl
  | some d =>
    obtain ⟨a, ha, ht⟩ := hit.2.2 d hi
    simp only [ha]
    have key' : padOf c ∣ m → 0 < a.align → a.byval = false → alignUp a.align (s + m * k) = alignUp a.align s + m * k := by
      intro hm h0 hb
      simp only [padOf, ha, hb, Bool.false_eq_true, if_false] at hm
      obtain ⟨j, rfl⟩ := hm
      rw [Nat.mul_assoc]; exact alignUp_shift _ _ _ h0
    cases d with
    | byval n => simp only [computeSize]; omega
    | varlena hd p =>
      simp only [computeSize]
      by_cases h1 : (packable a && canMakeShort hd p) = true
      · rw [if_pos h1, if_pos h1]; omega
      · rw [if_neg h1, if_neg h1]
        by_cases h2 : hd = .short
        · subst h2; simp only; omega
        · have hm' := hm
          simp only [padItem, hi, ha] at hm'
          rw [if_neg (by rintro (h | h); exacts [h2 h, h1 h])] at hm'
          have := key' hm' ht.2.2.1 ht.1
          cases hd <;> simp only <;> first | omega | exact absurd rfl h2
    | cstring q =>
      have key := key' (by simpa only [padItem, hi, ha] using hm)
      have := key (by rw [ht.2.2.1]; exact Nat.one_pos) ht.1
      simp only [computeSize]; omega
    | fixedRef q =>
      have key := key' (by simpa only [padItem, hi, ha] using hm)
      have := key ht.2.2.1 ht.1
      simp only [computeSize]; omega

theorem checkPlace_shift (c : Cfg) (it : Item Datum) (hit : ItemOK c it) (prev : Iptr) (m s k : Nat) (hm : padItem c it ∣ m) :
    checkPlace c it prev (s + m * k) = checkPlace c it prev s + m * k := by
  rw [checkPlace_eq, checkPlace_eq, show s + m * k + sizeIptr c.alt it.iptr prev = s + sizeIptr c.alt it.iptr prev + m * k by omega,
    infoSize_shift c it hit m _ k hm]

theorem checkList_shift' (c : Cfg) (m k : Nat) (l : List (Item Datum)) :
    ∀ prev s, (∀ it ∈ l, ItemOK c it ∧ padItem c it ∣ m) → checkList c prev (s + m * k) l = checkList c prev s l + m * k := by
  induction l with
  | nil => intros; rfl
  | cons a l ih =>
    intro prev s h
    simp only [checkList]
    rw [checkPlace_shift c a (h a (by simp)).1 prev m s k (h a (by simp)).2, ih _ _ (fun x hx => h x (by simp [hx]))]

theorem checkList_shift (c : Cfg) (m k : Nat) (hm : padOf c ∣ m) (l : List (Item Datum)) :
    ∀ prev s, (∀ it ∈ l, ItemOK c it) → checkList c prev (s + m * k) l = checkList c prev s l + m * k :=
  fun prev s h => checkList_shift' c m k l prev s (fun it hit => ⟨h it hit, padItem_dvd hm⟩)

theorem sizeBlk_mono (a b : Nat) (h : a ≤ b) : sizeBlk a ≤ sizeBlk b := by
  obtain ⟨j, hj⟩ : ∃ j, sizeBlk b = j + 1 := ⟨sizeBlk b - 1, by have := sizeBlk_pos b; omega⟩
  have hb := (sizeBlk_le_iff b j).1 (by omega)
  rw [hj, sizeBlk_le_iff]; omega

theorem sizeIptr_mono (c : Cfg) (it : Item Datum) (hit : ItemOK c it) (p q : Iptr)
    (h : c.alt = false → p.blk ≤ q.blk ∧ q.blk ≤ it.iptr.blk) : sizeIptr c.alt it.iptr q ≤ sizeIptr c.alt it.iptr p := by
  cases halt : c.alt with
  | true => simp [sizeIptr]
  | false =>
    obtain ⟨h1, h2⟩ := h halt
    simp only [sizeIptr, Bool.false_eq_true, if_false]
    rw [subBlk _ _ h2 hit.1.1, subBlk _ _ (by omega) hit.1.1]
    have := sizeBlk_mono (it.iptr.blk - q.blk) (it.iptr.blk - p.blk) (by omega)
    omega

theorem checkPlace_mono (c : Cfg) (it : Item Datum) (hit : ItemOK c it) (p q : Iptr) (s t : Nat) (hst : s ≤ t)
    (h : c.alt = false → p.blk ≤ q.blk ∧ q.blk ≤ it.iptr.blk) : checkPlace c it q s ≤ checkPlace c it p t := by
  rw [checkPlace_eq, checkPlace_eq]
  apply infoSize_mono
  have := sizeIptr_mono c it hit p q h
  omega

theorem checkList_mono (c : Cfg) (l : List (Item Datum)) : ∀ (p q : Iptr) (s t : Nat), (∀ it ∈ l, ItemOK c it) → s ≤ t →
    (c.alt = false → p.blk ≤ q.blk ∧ BlkSorted q.blk l) → checkList c q s l ≤ checkList c p t l := by
  induction l with
  | nil => intro p q s t _ h _; exact h
  | cons a l ih =>
    intro p q s t h hst hb
    simp only [checkList]
    have h1 := checkPlace_mono c a (h a (by simp)) p q s t hst (fun ha => ⟨(hb ha).1, (hb ha).2.1⟩)
    exact ih _ _ _ _ (fun x hx => h x (by simp [hx])) h1 (fun ha => ⟨Nat.le_refl _, (hb ha).2.2⟩)

theorem checkList_append (c : Cfg) (l r : List (Item Datum)) : ∀ (p : Iptr) (s : Nat),
    checkList c p s (l ++ r) = checkList c (lastIptr p l) (checkList c p s l) r := by
  induction l with
  | nil => intros; rfl
  | cons a l ih => intro p s; simp only [List.cons_append, checkList, lastIptr, ih]

theorem blkSorted_append (l r : List (Item Datum)) : ∀ p, BlkSorted p (l ++ r) →
    BlkSorted p l ∧ BlkSorted (l.getLast?.elim p (·.iptr.blk)) r := by
  induction l with
  | nil => intro p h; exact ⟨trivial, h⟩
  | cons a l ih =>
    intro p h
    obtain ⟨h1, h2⟩ := h
    obtain ⟨h3, h4⟩ := ih _ h2
    refine ⟨⟨h1, h3⟩, ?_⟩
    cases l with
    | nil => exact h4
    | cons b l => simpa [List.getLast?_cons] using h4

theorem blkSorted_mono {p q : Nat} {l : List (Item Datum)} (h : BlkSorted q l) (hpq : p ≤ q) : BlkSorted p l := by
  cases l with
  | nil => trivial
  | cons a l => exact ⟨Nat.le_trans hpq h.1, h.2⟩

/-- One item more, alignment dividing 4: the list grows by at most the worst-case size plus 6 bytes. -/
theorem checkList_insert_le (c : Cfg) (a b : List (Item Datum)) (n : Item Datum)
    (ha : ∀ it ∈ a, ItemOK c it) (hb : ∀ it ∈ b, ItemOK c it) (hn : ItemOK c n)
    (hs : c.alt = false → BlkSorted 0 (a ++ n :: b)) (hpad : padOf c ∣ 4) :
    checkList c ⟨0, 0⟩ 0 (a ++ n :: b) ≤ checkList c ⟨0, 0⟩ 0 (a ++ b) + checkPlace c n ⟨0, 0⟩ 0 + 6 := by
  rw [checkList_append, checkList_append]
  generalize hp : checkList c ⟨0, 0⟩ 0 a = p
  simp only [checkList]
  have hbl : c.alt = false → ∀ q, BlkSorted (lastIptr ⟨0, 0⟩ a).blk q → BlkSorted (lastIptr ⟨0, 0⟩ a).blk q := fun _ _ h => h
  have hlast : ∀ (l : List (Item Datum)) (q : Iptr), (lastIptr q l).blk = l.getLast?.elim q.blk (·.iptr.blk) := by
    intro l
    induction l with
    | nil => intro q; rfl
    | cons y l ih =>
      intro q
      rw [lastIptr, ih]
      cases l with
      | nil => rfl
      | cons z l => simp [List.getLast?_cons]
  have hbs : c.alt = false → BlkSorted (lastIptr ⟨0, 0⟩ a).blk (n :: b) := by
    intro h
    rw [hlast]
    exact (blkSorted_append a (n :: b) 0 (hs h)).2
  have h1 : checkPlace c n (lastIptr ⟨0, 0⟩ a) p ≤ p + 4 * ((checkPlace c n ⟨0, 0⟩ 0 + 6) / 4) := by
    have h2 := checkPlace_mono c n hn ⟨0, 0⟩ (lastIptr ⟨0, 0⟩ a) p (0 + 4 * ((p + 3) / 4)) (by omega)
      (fun h => ⟨Nat.zero_le _, (hbs h).1⟩)
    rw [checkPlace_shift c n hn ⟨0, 0⟩ 4 0 _ (padItem_dvd hpad)] at h2
    omega
  have h2 := checkList_mono c b (lastIptr ⟨0, 0⟩ a) n.iptr _ _ hb h1 (fun h => hbs h)
  rw [checkList_shift c 4 _ hpad b _ _ hb] at h2
  omega

theorem newItemSize_eq (c : Cfg) (s : MergeSt) (n : Item Datum) (hn : ItemOK c n) (hpad : padItem c n ∣ 8) :
    s.out.length + newItemSize c s n = checkPlace c n s.iptr s.out.length := by
  unfold newItemSize
  have h1 := checkPlace_shift c n hn s.iptr 8 (s.out.length % 8) (s.out.length / 8) hpad
  rw [show s.out.length % 8 + 8 * (s.out.length / 8) = s.out.length by omega] at h1
  have h2 := infoSize_ge c n (s.out.length % 8 + sizeIptr c.alt n.iptr s.iptr) hn
  rw [← checkPlace_eq] at h2
  omega

theorem newItemSize_le (c : Cfg) (s : MergeSt) (n : Item Datum) (hn : ItemOK c n) (hpad : padItem c n ∣ 8)
    (hp : c.alt = false → s.iptr.blk ≤ n.iptr.blk) : newItemSize c s n ≤ checkPlace c n ⟨0, 0⟩ 0 + 8 := by
  unfold newItemSize
  have h2 := checkPlace_mono c n hn ⟨0, 0⟩ s.iptr (s.out.length % 8) (0 + 8 * 1) (by omega)
      (fun h => ⟨Nat.zero_le _, hp h⟩)
  rw [checkPlace_shift c n hn ⟨0, 0⟩ 8 0 1 hpad] at h2
  omega

theorem insertNew_size (c : Cfg) (s s' : MergeSt) (n : Item Datum) (hn : ItemOK c n) (hpad : padItem c n ∣ 8)
    (h : insertNew c s n = some s') : s'.out.length = s.out.length + newItemSize c s n ∧ s'.iptr = n.iptr ∧
      s'.free = s.free - newItemSize c s n ∧ s'.stop = s.stop := by
  obtain ⟨b, hb, hl⟩ := placeItem_ok c s.out.length n s.iptr hn
  rw [insertNew, hb] at h
  simp only [Option.map_some, Option.some.injEq] at h
  subst h
  have := newItemSize_eq c s n hn hpad
  refine ⟨?_, rfl, rfl, rfl⟩
  simp only [List.length_append]; omega

theorem copyOld_size (c : Cfg) (s s' : MergeSt) (o : Item Datum) (hn : ItemOK c o)
    (h : copyOld c s o = some s') : s'.out.length = checkPlace c o s.iptr s.out.length ∧ s'.iptr = o.iptr ∧
      s'.free = s.free ∧ s'.stop = s.stop := by
  obtain ⟨b, hb, hl⟩ := placeItem_ok c s.out.length o s.iptr hn
  rw [copyOld, hb] at h
  simp only [Option.map_some, Option.some.injEq] at h
  subst h
  refine ⟨?_, rfl, rfl, rfl⟩
  simp only [List.length_append]; omega

/-- Appending to a page never uses more than the free space. -/
theorem mergeLoop_append_size (x : Ctx) (rb : Option (Item Datum)) (hpad : padOf x.cfg ∣ 8) (new : List (Item Datum)) :
    ∀ s s' rest, (∀ it ∈ new, ItemOK x.cfg it) → mergeLoop x rb [] new s = some (s', rest) →
      s'.out.length ≤ s.out.length + s.free := by
  induction new with
  | nil => intro s s' rest _ h; rw [mergeLoop] at h; simp at h; rw [h.1]; omega
  | cons n ns ih =>
    intro s s' rest hn h
    rw [mergeLoop] at h
    split at h
    · simp at h; rw [← h.1]; omega
    · split at h
      · split at h
        · next hfit =>
          cases hi : insertNew x.cfg s n with
          | none => rw [hi] at h; simp at h
          | some t =>
            rw [hi] at h
            obtain ⟨h1, h2, h3, h4⟩ := insertNew_size x.cfg s t n (hn n (by simp)) (padItem_dvd hpad) hi
            have := ih t s' rest (fun y hy => hn y (by simp [hy])) h
            omega
        · simp at h; rw [← h.1]; simp
      · simp at h; rw [← h.1]; omega

theorem blk_le_of_lt (x : Ctx) (h : x.cfg.alt = false) (a b : Item Datum) (hc : x.cmp a b ≠ .gt) : a.iptr.blk ≤ b.iptr.blk := by
  simp only [Ctx.cmp, h, Bool.false_and, cmpItem, Bool.false_eq_true, if_false, cmpIptr] at hc
  split at hc
  · omega
  · split at hc
    · exact absurd rfl hc
    · omega

/-- Without padding, any batch: the page never needs more than the old items and the free space. -/
theorem mergeLoop_size (x : Ctx) [TransCmp x.cmpV] (rb : Option (Item Datum))
    (old new : List (Item Datum)) (s : MergeSt) :
    ∀ (prevOld : Iptr) s' rest, (∀ it ∈ old, Flat x.cfg it) → (∀ it ∈ new, Flat x.cfg it) →
    SSorted x.cmp old → SSorted x.cmp new →
    (x.cfg.alt = false → prevOld.blk ≤ s.iptr.blk ∧ (∀ o ∈ old, s.iptr.blk ≤ o.iptr.blk) ∧
      (s.stop = false → ∀ n ∈ new, s.iptr.blk ≤ n.iptr.blk)) →
    mergeLoop x rb old new s = some (s', rest) →
    s'.out.length ≤ s.out.length + checkList x.cfg prevOld 0 old + s.free := by
  have htr : TransCmp x.cmp := cmpItem_trans _ _
  -- one copied item
  have hcopy : ∀ (prevOld : Iptr) (s t : MergeSt) (o : Item Datum) (os : List (Item Datum)), (∀ it ∈ o :: os, Flat x.cfg it) →
      (x.cfg.alt = false → prevOld.blk ≤ s.iptr.blk ∧ s.iptr.blk ≤ o.iptr.blk) → copyOld x.cfg s o = some t →
      t.out.length + checkList x.cfg o.iptr 0 os ≤ s.out.length + checkList x.cfg prevOld 0 (o :: os) := by
    intro prevOld s t o os hok hb hc
    obtain ⟨c1, -⟩ := copyOld_size x.cfg s t o (hok o (by simp)).ok hc
    have m := checkPlace_mono x.cfg o (hok o (by simp)).ok prevOld s.iptr s.out.length (0 + 1 * s.out.length) (by omega) hb
    rw [checkPlace_shift x.cfg o (hok o (by simp)).ok prevOld 1 0 _ ((hok o (by simp)).dvd _)] at m
    simp only [checkList]
    have e := checkList_shift' x.cfg 1 (checkPlace x.cfg o prevOld 0) os o.iptr 0 (fun y hy => ⟨(hok y (by simp [hy])).ok, (hok y (by simp [hy])).dvd _⟩)
    rw [Nat.zero_add, Nat.one_mul] at e
    omega
  have hsub : ∀ (o : Item Datum) (os : List (Item Datum)), SSorted x.cmp (o :: os) → x.cfg.alt = false →
      ∀ y ∈ os, o.iptr.blk ≤ y.iptr.blk := by
    intro o os hs ha y hy
    unfold SSorted at hs
    rw [List.pairwise_cons] at hs
    exact blk_le_of_lt x ha o y (by rw [hs.1 y hy]; decide)
  fun_induction mergeLoop x rb old new s with
  | case1 o os n ns s hstop ih =>
    intro prevOld s' rest ho hn so sn hb h
    cases hc : copyOld x.cfg s o with
    | none => rw [hc] at h; simp at h
    | some t =>
      rw [hc] at h
      obtain ⟨c1, c2, c3, c4⟩ := copyOld_size x.cfg s t o (ho o (by simp)).ok hc
      have := hcopy prevOld s t o os ho (fun ha => ⟨(hb ha).1, (hb ha).2.1 o (by simp)⟩) hc
      have := ih t o.iptr s' rest (fun y hy => ho y (by simp [hy])) hn (List.pairwise_cons.1 so).2 sn
        (fun ha => by rw [c2, c4]; exact ⟨Nat.le_refl _, hsub o os so ha, fun hh => absurd hstop (by simp [hh])⟩) h
      omega
  | case2 o os n ns s hstop hcm ih =>
    intro prevOld s' rest ho hn so sn hb h
    cases hc : copyOld x.cfg s o with
    | none => rw [hc] at h; simp at h
    | some t =>
      rw [hc] at h
      obtain ⟨c1, c2, c3, c4⟩ := copyOld_size x.cfg s t o (ho o (by simp)).ok hc
      have := hcopy prevOld s t o os ho (fun ha => ⟨(hb ha).1, (hb ha).2.1 o (by simp)⟩) hc
      have := ih t o.iptr s' rest (fun y hy => ho y (by simp [hy])) hn (List.pairwise_cons.1 so).2 sn
        (fun ha => by
          rw [c2]
          refine ⟨Nat.le_refl _, hsub o os so ha, fun _ m hm => ?_⟩
          have h1 := blk_le_of_lt x ha o n (by rw [hcm]; decide)
          rcases List.mem_cons.1 hm with rfl | hm
          · exact h1
          · exact Nat.le_trans h1 (hsub n ns sn ha m hm)) h
      omega
  | case3 o os n ns s hstop hcm ih =>
    intro prevOld s' rest ho hn so sn hb h
    cases hc : copyOld x.cfg s o with
    | none => rw [hc] at h; simp at h
    | some t =>
      rw [hc] at h
      obtain ⟨c1, c2, c3, c4⟩ := copyOld_size x.cfg s t o (ho o (by simp)).ok hc
      have := hcopy prevOld s t o os ho (fun ha => ⟨(hb ha).1, (hb ha).2.1 o (by simp)⟩) hc
      have := ih t o.iptr s' rest (fun y hy => ho y (by simp [hy])) (fun y hy => hn y (by simp [hy]))
        (List.pairwise_cons.1 so).2 (List.pairwise_cons.1 sn).2
        (fun ha => by
          rw [c2]
          refine ⟨Nat.le_refl _, hsub o os so ha, fun _ m hm => ?_⟩
          have h1 := blk_le_of_lt x ha o n (by rw [hcm]; decide)
          exact Nat.le_trans h1 (hsub n ns sn ha m hm)) h
      omega
  | case4 o os n ns s hstop hcm hfit ih =>
    intro prevOld s' rest ho hn so sn hb h
    cases hc : insertNew x.cfg s n with
    | none => rw [hc] at h; simp at h
    | some t =>
      rw [hc] at h
      obtain ⟨c1, c2, c3, c4⟩ := insertNew_size x.cfg s t n (hn n (by simp)).ok ((hn n (by simp)).dvd _) hc
      have := ih t prevOld s' rest ho (fun y hy => hn y (by simp [hy])) so (List.pairwise_cons.1 sn).2
        (fun ha => by
          rw [c2]
          have hno := blk_le_of_lt x ha n o (by rw [OrientedCmp.lt_of_gt hcm]; decide)
          refine ⟨Nat.le_trans (hb ha).1 ((hb ha).2.2 (by simpa using hstop) n (by simp)), fun y hy => ?_, fun _ => hsub n ns sn ha⟩
          rcases List.mem_cons.1 hy with rfl | hy
          · exact hno
          · exact Nat.le_trans hno (hsub o os so ha y hy)) h
      omega
  | case5 o os n ns s hstop hcm hfit ih =>
    intro prevOld s' rest ho hn so sn hb h
    cases hc : copyOld x.cfg { s with stop := true } o with
    | none => rw [hc] at h; simp at h
    | some t =>
      rw [hc] at h
      obtain ⟨c1, c2, c3, c4⟩ := copyOld_size x.cfg _ t o (ho o (by simp)).ok hc
      have := hcopy prevOld { s with stop := true } t o os ho (fun ha => ⟨(hb ha).1, (hb ha).2.1 o (by simp)⟩) hc
      have := ih t o.iptr s' rest (fun y hy => ho y (by simp [hy])) hn (List.pairwise_cons.1 so).2 sn
        (fun ha => by rw [c2, c4]; exact ⟨Nat.le_refl _, hsub o os so ha, fun hh => absurd hh (by simp)⟩) h
      simp only at *
      omega
  | case6 n ns s hstop =>
    intro prevOld s' rest ho hn so sn hb h
    simp at h; rw [← h.1]; omega
  | case7 n ns s hstop hrb hfit ih =>
    intro prevOld s' rest ho hn so sn hb h
    cases hc : insertNew x.cfg s n with
    | none => rw [hc] at h; simp at h
    | some t =>
      rw [hc] at h
      obtain ⟨c1, c2, c3, c4⟩ := insertNew_size x.cfg s t n (hn n (by simp)).ok ((hn n (by simp)).dvd _) hc
      have := ih t prevOld s' rest ho (fun y hy => hn y (by simp [hy])) so (List.pairwise_cons.1 sn).2
        (fun ha => by
          rw [c2]
          exact ⟨Nat.le_trans (hb ha).1 ((hb ha).2.2 (by simpa using hstop) n (by simp)), fun y hy => by simp at hy, fun _ => hsub n ns sn ha⟩) h
      omega
  | case8 n ns s hstop hrb hfit =>
    intro prevOld s' rest ho hn so sn hb h
    simp at h; rw [← h.1]; simp only; omega
  | case9 n ns s hstop hrb =>
    intro prevOld s' rest ho hn so sn hb h
    simp at h; rw [← h.1]; omega
  | case10 o os s ih =>
    intro prevOld s' rest ho hn so sn hb h
    cases hc : copyOld x.cfg s o with
    | none => rw [hc] at h; simp at h
    | some t =>
      rw [hc] at h
      obtain ⟨c1, c2, c3, c4⟩ := copyOld_size x.cfg s t o (ho o (by simp)).ok hc
      have := hcopy prevOld s t o os ho (fun ha => ⟨(hb ha).1, (hb ha).2.1 o (by simp)⟩) hc
      have := ih t o.iptr s' rest (fun y hy => ho y (by simp [hy])) hn (List.pairwise_cons.1 so).2 sn
        (fun ha => by rw [c2, c4]; exact ⟨Nat.le_refl _, hsub o os so ha, fun _ m hm => by simp at hm⟩) h
      omega
  | case11 s =>
    intro prevOld s' rest ho hn so sn hb h
    simp at h; rw [← h.1]; omega

/-- If the first new item is within the page's bound and there is room for it, it is consumed. -/
theorem mergeLoop_progress (x : Ctx) [TransCmp x.cmpV] (rb : Option (Item Datum)) (n : Item Datum) (ns : List (Item Datum))
    (hn : ItemOK x.cfg n) (h8 : padOf x.cfg ∣ 8)
    (hrb : ∀ b, rb = some b → x.cmp b n ≠ .lt) (old : List (Item Datum)) :
    ∀ (s : MergeSt) s' rest, (∀ it ∈ old, ItemOK x.cfg it) → s.stop = false →
    (x.cfg.alt = false → s.iptr.blk ≤ n.iptr.blk) → checkPlace x.cfg n ⟨0, 0⟩ 0 + 8 ≤ s.free →
    mergeLoop x rb old (n :: ns) s = some (s', rest) → rest.length ≤ ns.length := by
  have htr : TransCmp x.cmp := cmpItem_trans _ _
  have hlen : ∀ (old new : List (Item Datum)) (s : MergeSt) s' rest, mergeLoop x rb old new s = some (s', rest) → rest.length ≤ new.length := by
    intro old new s
    fun_induction mergeLoop x rb old new s with
    | case1 o os n ns s hstop ih | case2 o os n ns s hstop _ ih | case5 o os n ns s hstop _ _ ih | case10 o os s ih =>
      intro s' rest h
      rw [Option.bind_eq_some_iff] at h
      obtain ⟨t, _, h⟩ := h
      exact ih _ _ _ h
    | case3 o os n ns s hstop _ ih | case4 o os n ns s hstop _ _ ih | case7 n ns s hstop _ _ ih =>
      intro s' rest h
      rw [Option.bind_eq_some_iff] at h
      obtain ⟨t, _, h⟩ := h
      have := ih _ _ _ h
      simp only [List.length_cons]; omega
    | case6 | case8 | case9 | case11 => intro s' rest h; simp at h; rw [← h.2]; simp
  induction old with
  | nil =>
    intro s s' rest _ hs hb hf h
    have h2 := newItemSize_le x.cfg s n hn (padItem_dvd h8) hb
    rw [mergeLoop, if_neg (by simp [hs]), if_pos, if_pos (by omega), Option.bind_eq_some_iff] at h
    · obtain ⟨t, _, h⟩ := h
      exact hlen _ _ _ _ _ h
    · cases rb with
      | none => rfl
      | some b => simpa using hrb b rfl
  | cons o os ih =>
    intro s s' rest ho hs hb hf h
    have h2 := newItemSize_le x.cfg s n hn (padItem_dvd h8) hb
    rw [mergeLoop, if_neg (by simp [hs])] at h
    split at h
    · next hc =>
      rw [Option.bind_eq_some_iff] at h
      obtain ⟨t, h1, h⟩ := h
      obtain ⟨c1, c2, c3, c4⟩ := copyOld_size x.cfg s t o (ho o (by simp)) h1
      exact ih t s' rest (fun y hy => ho y (by simp [hy])) (by rw [c4]; exact hs)
        (fun ha => by rw [c2]; exact blk_le_of_lt x ha o n (by rw [hc]; decide)) (by omega) h
    · rw [Option.bind_eq_some_iff] at h
      obtain ⟨t, h1, h⟩ := h
      exact hlen _ _ _ _ _ h
    · rw [if_pos (by omega), Option.bind_eq_some_iff] at h
      obtain ⟨t, h1, h⟩ := h
      exact hlen _ _ _ _ _ h
end Rum.Leaf
