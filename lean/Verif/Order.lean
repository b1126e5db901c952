import Verif.Basic
/-
Comparison functions. A C comparison result `< 0`, `0`, `> 0` is `Ordering.lt`, `.eq`, `.gt`.
-/
namespace Rum
open Std

/-- rumCompareItemPointers, /repo/src/rumdatapage.c:307-324. -/
def cmpIptr (a b : Iptr) : Ordering :=
  if a.blk = b.blk then
    if a.off = b.off then .eq
    else if a.off > b.off then .gt else .lt
  else if a.blk > b.blk then .gt else .lt

/-- compareRumItem, /repo/src/rumdatapage.c:326-360. `alt` is
`useAlternativeOrder && attno == attrnAddToColumn`; `cmpV` is the attached column's
comparison function. -/
def cmpItem {V : Type} (alt : Bool) (cmpV : V → V → Ordering) (a b : Item V) : Ordering :=
  if alt then
    match a.info, b.info with
    | some x, some y =>
      match cmpV x y with
      | .eq => cmpIptr a.iptr b.iptr
      | r => r
    | none, some _ => .lt
    | none, none => cmpIptr a.iptr b.iptr
    | some _, none => .gt
  else cmpIptr a.iptr b.iptr

/-- Null categories of index keys; `RumNullCategory` is `signed char`.
/repo/src/rum.h:209-215. -/
inductive Cat where
  | norm      -- RUM_CAT_NORM_KEY 0
  | nullKey   -- RUM_CAT_NULL_KEY 1
  | emptyItem -- RUM_CAT_EMPTY_ITEM 2
  | nullItem  -- RUM_CAT_NULL_ITEM 3
  | emptyQuery -- RUM_CAT_EMPTY_QUERY -1
deriving DecidableEq, Repr

/-- The numeric value of a category. /repo/src/rum.h:210-214. -/
def Cat.code : Cat → Int
  | .norm => 0
  | .nullKey => 1
  | .emptyItem => 2
  | .nullItem => 3
  | .emptyQuery => -1

/-- rumCompareEntries, /repo/src/rumutil.c:637-654. -/
def cmpEntries {K : Type} (cmpK : K → K → Ordering) (a : K) (ca : Cat) (b : K) (cb : Cat) : Ordering :=
  if ca ≠ cb then (if ca.code < cb.code then .lt else .gt)
  else if ca ≠ .norm then .eq
  else cmpK a b

/-- A key of a given column: column number, category, value. -/
structure AttKey (K : Type) where
  attnum : Nat
  cat : Cat
  key : K
deriving DecidableEq, Repr

/-- rumCompareAttEntries, /repo/src/rumutil.c:659-669. `cmpK n` is the comparison
function of column `n`. -/
def cmpAttEntries {K : Type} (cmpK : Nat → K → K → Ordering) (a b : AttKey K) : Ordering :=
  if a.attnum ≠ b.attnum then (if a.attnum < b.attnum then .lt else .gt)
  else cmpEntries (cmpK a.attnum) a.key a.cat b.key b.cat

/-- cmpEntries (the qsort comparator of rumExtractEntries), /repo/src/rumutil.c:694-724;
`none` is a NULL key. -/
def cmpExtract {K : Type} (cmpK : K → K → Ordering) (a b : Option K) : Ordering :=
  match a, b with
  | none, none => .eq
  | none, some _ => .gt
  | some _, none => .lt
  | some x, some y => cmpK x y

/-! ### Lemmas -/

theorem cmpIptr_eq (a b : Iptr) : cmpIptr a b = (compare a.blk b.blk).then (compare a.off b.off) := by
  unfold cmpIptr
  by_cases h1 : a.blk = b.blk
  · rw [if_pos h1, h1]
    have : compare b.blk b.blk = .eq := ReflOrd.compare_self
    rw [this, Ordering.then]
    by_cases h2 : a.off = b.off
    · rw [if_pos h2, h2]; exact ReflOrd.compare_self.symm
    · rw [if_neg h2]
      by_cases h3 : a.off > b.off
      · rw [if_pos h3]; exact (Nat.compare_eq_gt.2 h3).symm
      · rw [if_neg h3]; exact (Nat.compare_eq_lt.2 (by omega)).symm
  · rw [if_neg h1]
    by_cases h3 : a.blk > b.blk
    · rw [if_pos h3, Nat.compare_eq_gt.2 h3]; rfl
    · rw [if_neg h3, Nat.compare_eq_lt.2 (by omega)]; rfl

instance : TransCmp cmpIptr := by
  have h : cmpIptr = compareLex (compareOn Iptr.blk) (compareOn Iptr.off) := by
    funext a b; rw [cmpIptr_eq]; rfl
  rw [h]
  infer_instance

instance : LawfulEqCmp cmpIptr where
  compare_self := ReflCmp.compare_self
  eq_of_compare := by
    intro a b h
    rw [cmpIptr_eq, Ordering.then_eq_eq, Nat.compare_eq_eq, Nat.compare_eq_eq] at h
    cases a; cases b; simp_all

theorem then_trans_helper {α : Type} {c1 c2 : α → α → Ordering} [TransCmp c1] [TransCmp c2] :
    TransCmp (fun a b => (c1 a b).then (c2 a b)) :=
  inferInstanceAs (TransCmp (compareLex c1 c2))

/-- Comparison of optional additional info, NULL first. -/
def cmpInfo {V : Type} (cmpV : V → V → Ordering) (a b : Option V) : Ordering :=
  match a, b with
  | none, none => .eq
  | none, some _ => .lt
  | some _, none => .gt
  | some x, some y => cmpV x y

instance {V : Type} (cmpV : V → V → Ordering) [TransCmp cmpV] : TransCmp (cmpInfo cmpV) where
  eq_swap := by
    intro a b
    cases a <;> cases b <;> simp [cmpInfo]
    exact OrientedCmp.eq_swap
  isLE_trans := by
    intro a b c
    cases a <;> cases b <;> cases c <;> simp [cmpInfo]
    exact TransCmp.isLE_trans

theorem cmpItem_alt {V : Type} (cmpV : V → V → Ordering) (a b : Item V) :
    cmpItem true cmpV a b = (cmpInfo cmpV a.info b.info).then (cmpIptr a.iptr b.iptr) := by
  unfold cmpItem cmpInfo
  cases a.info <;> cases b.info <;> simp [Ordering.then]
  split <;> simp_all

instance cmpItem_trans {V : Type} (alt : Bool) (cmpV : V → V → Ordering) [TransCmp cmpV] :
    TransCmp (cmpItem alt cmpV) := by
  have h2 : TransCmp (fun a b : Item V => cmpIptr a.iptr b.iptr) :=
    { eq_swap := OrientedCmp.eq_swap, isLE_trans := TransCmp.isLE_trans }
  cases alt
  · have : cmpItem false cmpV = fun a b => cmpIptr a.iptr b.iptr := by
      funext a b; simp [cmpItem]
    rw [this]; exact h2
  · have : cmpItem true cmpV = fun a b => (cmpInfo cmpV a.info b.info).then (cmpIptr a.iptr b.iptr) := by
      funext a b; exact cmpItem_alt cmpV a b
    rw [this]
    have h1 : TransCmp (fun a b : Item V => cmpInfo cmpV a.info b.info) :=
      { eq_swap := OrientedCmp.eq_swap, isLE_trans := TransCmp.isLE_trans }
    exact then_trans_helper (c1 := fun a b : Item V => cmpInfo cmpV a.info b.info)
      (c2 := fun a b : Item V => cmpIptr a.iptr b.iptr)

theorem Cat.code_inj {a b : Cat} (h : a.code = b.code) : a = b := by
  cases a <;> cases b <;> simp [Cat.code] at h <;> rfl

theorem cmpEntries_eq {K : Type} (cmpK : K → K → Ordering) (a : K) (ca : Cat) (b : K) (cb : Cat) :
    cmpEntries cmpK a ca b cb =
      (compare ca.code cb.code).then (if ca = .norm then cmpK a b else .eq) := by
  unfold cmpEntries
  by_cases h : ca = cb
  · subst h
    have : compare ca.code ca.code = .eq := ReflOrd.compare_self
    rw [this]; simp [Ordering.then]
  · have hne : ca.code ≠ cb.code := fun e => h (Cat.code_inj e)
    simp only [ne_eq, h, not_false_iff, if_true]
    by_cases h3 : ca.code < cb.code
    · rw [if_pos h3]
      have : compare ca.code cb.code = .lt := by
        rw [Int.compare_eq_lt]; exact h3
      rw [this]; rfl
    · rw [if_neg h3]
      have : compare ca.code cb.code = .gt := by
        rw [Int.compare_eq_gt]; omega
      rw [this]; rfl

instance cmpAttEntries_trans {K : Type} (cmpK : Nat → K → K → Ordering) [inst : ∀ n, TransCmp (cmpK n)] :
    TransCmp (cmpAttEntries cmpK) := by
  have key : ∀ a b : AttKey K, cmpAttEntries cmpK a b =
      (compare a.attnum b.attnum).then ((compare a.cat.code b.cat.code).then
        (if a.cat = .norm then cmpK a.attnum a.key b.key else .eq)) := by
    intro a b
    unfold cmpAttEntries
    by_cases h : a.attnum = b.attnum
    · simp only [h, ne_eq, not_true, if_false]
      rw [ReflOrd.compare_self (a := b.attnum), cmpEntries_eq]
      rfl
    · simp only [ne_eq, h, not_false_iff, if_true]
      by_cases h3 : a.attnum < b.attnum
      · rw [if_pos h3, Nat.compare_eq_lt.2 h3]; rfl
      · rw [if_neg h3, Nat.compare_eq_gt.2 (by omega)]; rfl
  have ho : OrientedCmp (cmpAttEntries cmpK) := by
    refine ⟨?_⟩
    intro a b
    rw [key, key]
    by_cases h : a.attnum = b.attnum
    · rw [h, ReflOrd.compare_self (a := b.attnum)]
      simp only [Ordering.then]
      by_cases hc : a.cat = b.cat
      · rw [hc, ReflOrd.compare_self]
        simp only
        by_cases hn : b.cat = .norm
        · simp only [hn, if_true]; exact OrientedCmp.eq_swap
        · simp [hn]
      · have hne : a.cat.code ≠ b.cat.code := fun e => hc (Cat.code_inj e)
        rw [OrientedOrd.eq_swap (a := a.cat.code) (b := b.cat.code)]
        have : compare b.cat.code a.cat.code ≠ .eq := by
          rw [ne_eq, Int.compare_eq_eq]; omega
        cases hcmp : compare b.cat.code a.cat.code <;> simp_all
    · rw [OrientedOrd.eq_swap (a := a.attnum) (b := b.attnum)]
      have : compare b.attnum a.attnum ≠ .eq := by
        rw [ne_eq, Nat.compare_eq_eq]; omega
      cases hcmp : compare b.attnum a.attnum <;> simp_all
  refine { toOrientedCmp := ho, isLE_trans := ?_ }
  · intro a b c
    rw [key, key, key]
    intro h1 h2
    have l1 : a.attnum ≤ b.attnum := by
      cases hx : compare a.attnum b.attnum
      · rw [Nat.compare_eq_lt] at hx; omega
      · rw [Nat.compare_eq_eq] at hx; omega
      · rw [hx] at h1; simp [Ordering.then] at h1
    have l2 : b.attnum ≤ c.attnum := by
      cases hx : compare b.attnum c.attnum
      · rw [Nat.compare_eq_lt] at hx; omega
      · rw [Nat.compare_eq_eq] at hx; omega
      · rw [hx] at h2; simp [Ordering.then] at h2
    by_cases e : a.attnum = c.attnum
    · have e1 : a.attnum = b.attnum := by omega
      have e2 : b.attnum = c.attnum := by omega
      rw [← e2, ReflOrd.compare_self] at h2
      rw [← e, ReflOrd.compare_self]
      rw [← e1, ReflOrd.compare_self] at h1
      rw [← e1] at h2
      simp only [Ordering.then] at h1 h2 ⊢
      have m1 : a.cat.code ≤ b.cat.code := by
        cases hx : compare a.cat.code b.cat.code
        · rw [Int.compare_eq_lt] at hx; omega
        · rw [Int.compare_eq_eq] at hx; omega
        · rw [hx] at h1; simp at h1
      have m2 : b.cat.code ≤ c.cat.code := by
        cases hx : compare b.cat.code c.cat.code
        · rw [Int.compare_eq_lt] at hx; omega
        · rw [Int.compare_eq_eq] at hx; omega
        · rw [hx] at h2; simp at h2
      by_cases f : a.cat.code = c.cat.code
      · have f1 : a.cat = b.cat := Cat.code_inj (by omega)
        have f2 : b.cat = c.cat := Cat.code_inj (by omega)
        rw [← f2, ReflOrd.compare_self] at h2
        rw [f1, ReflOrd.compare_self] at h1
        rw [f1, ← f2, ReflOrd.compare_self]
        simp only at h1 h2 ⊢
        by_cases hn : b.cat = .norm
        · simp only [hn, if_true] at h1 h2 ⊢
          exact TransCmp.isLE_trans h1 h2
        · simp [hn]
      · have : compare a.cat.code c.cat.code = .lt := by rw [Int.compare_eq_lt]; omega
        rw [this]; rfl
    · have : compare a.attnum c.attnum = .lt := by rw [Nat.compare_eq_lt]; omega
      rw [this]; rfl

instance {K : Type} (cmpK : K → K → Ordering) [TransCmp cmpK] : TransCmp (cmpExtract cmpK) where
  eq_swap := by
    intro a b
    cases a <;> cases b <;> simp [cmpExtract]
    exact OrientedCmp.eq_swap
  isLE_trans := by
    intro a b c
    cases a <;> cases b <;> cases c <;> simp [cmpExtract]
    exact TransCmp.isLE_trans

end Rum
