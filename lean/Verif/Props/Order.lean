import Verif.Merge
/-
Property theorems C03 (item order), C04 (key order), C05 (merging posting lists).
-/
namespace Rum.Props
open Rum Std

/-- **C03.** For any comparison function of the attached column that is a total preorder, the item order is
antisymmetric (swapping the arguments swaps the result), transitive and total in both ordering modes. -/
theorem C03_item_order_total {V : Type} (alt : Bool) (cmpV : V → V → Ordering) [TransCmp cmpV]
    (a b c : Item V) :
    (cmpItem alt cmpV a b = .lt ↔ cmpItem alt cmpV b a = .gt) ∧
    (cmpItem alt cmpV a b = .eq ↔ cmpItem alt cmpV b a = .eq) ∧
    (cmpItem alt cmpV a b = .lt → cmpItem alt cmpV b c = .lt → cmpItem alt cmpV a c = .lt) ∧
    (cmpItem alt cmpV a b ≠ .gt → cmpItem alt cmpV b c ≠ .gt → cmpItem alt cmpV a c ≠ .gt) ∧
    (cmpItem alt cmpV a b = .lt ∨ cmpItem alt cmpV a b = .eq ∨ cmpItem alt cmpV b a = .lt) := by
  obtain ⟨K, _, key, h1, h2, h3⟩ := exists_key (cmpItem alt cmpV)
  simp only [h1, h2, h3, ne_eq, _root_.not_lt]
  exact ⟨trivial, eq_comm, _root_.lt_trans, fun h g => _root_.le_trans h g, _root_.lt_trichotomy _ _⟩

/-- **C03**, equality: in row-pointer order two items compare equal exactly when their row pointers are equal;
in additional-info order exactly when, moreover, both infos are NULL or both are present and equal for the column's
comparison. -/
theorem C03_item_order_eq {V : Type} (alt : Bool) (cmpV : V → V → Ordering) (a b : Item V) :
    cmpItem alt cmpV a b = .eq ↔ a.iptr = b.iptr ∧
      (alt = true → (a.info = none ∧ b.info = none) ∨
        ∃ x y, a.info = some x ∧ b.info = some y ∧ cmpV x y = .eq) := by
  cases alt
  · simp [cmpItem, LawfulEqCmp.compare_eq_iff_eq]
  · rw [cmpItem_alt, Ordering.then_eq_eq, LawfulEqCmp.compare_eq_iff_eq (cmp := cmpIptr)]
    cases a.info <;> cases b.info <;> simp [cmpInfo, and_comm]

/-- **C03**, direction: row pointers are ordered by block, then offset. -/
theorem C03_iptr_order (a b : Iptr) :
    cmpIptr a b = .lt ↔ a.blk < b.blk ∨ (a.blk = b.blk ∧ a.off < b.off) := by
  rw [cmpIptr_eq, Ordering.then_eq_lt, Nat.compare_eq_lt, Nat.compare_eq_lt, Nat.compare_eq_eq]

/-- **C03**, NULLs: in additional-info order an item without additional info precedes every item with one, and
items with additional info are ordered by it first. -/
theorem C03_item_order_null_first {V : Type} (cmpV : V → V → Ordering) (a b : Item V) :
    (a.info = none → b.info ≠ none → cmpItem true cmpV a b = .lt) ∧
    (∀ x y, a.info = some x → b.info = some y → cmpV x y ≠ .eq → cmpItem true cmpV a b = cmpV x y) := by
  constructor
  · intro h g
    cases hb : b.info with
    | none => exact absurd hb g
    | some y => simp [cmpItem, h, hb]
  · intro x y h g hne
    simp only [cmpItem, h, g, if_true]

example : cmpItem true (compare : Nat → Nat → Ordering) ⟨⟨9, 1⟩, some 3⟩ ⟨⟨1, 1⟩, some 4⟩ = .lt := by decide
example : cmpItem false (compare : Nat → Nat → Ordering) ⟨⟨9, 1⟩, some 3⟩ ⟨⟨1, 1⟩, some 4⟩ = .gt := by decide

/-- **C04.** For any column comparison functions that are total preorders, the key order is antisymmetric,
transitive and total over (column, category, value). -/
theorem C04_key_order_total {K : Type} (cmpK : Nat → K → K → Ordering) [∀ n, TransCmp (cmpK n)]
    (a b c : AttKey K) :
    (cmpAttEntries cmpK a b = .lt ↔ cmpAttEntries cmpK b a = .gt) ∧
    (cmpAttEntries cmpK a b = .eq ↔ cmpAttEntries cmpK b a = .eq) ∧
    (cmpAttEntries cmpK a b = .lt → cmpAttEntries cmpK b c = .lt → cmpAttEntries cmpK a c = .lt) ∧
    (cmpAttEntries cmpK a b ≠ .gt → cmpAttEntries cmpK b c ≠ .gt → cmpAttEntries cmpK a c ≠ .gt) ∧
    (cmpAttEntries cmpK a b = .lt ∨ cmpAttEntries cmpK a b = .eq ∨ cmpAttEntries cmpK b a = .lt) := by
  obtain ⟨L, _, key, h1, h2, h3⟩ := exists_key (cmpAttEntries cmpK)
  simp only [h1, h2, h3, ne_eq, _root_.not_lt]
  exact ⟨trivial, eq_comm, _root_.lt_trans, fun h g => _root_.le_trans h g, _root_.lt_trichotomy _ _⟩

/-- **C04**, structure of the order: columns first; within a column real keys before NULL keys before the
empty-item placeholder before the NULL-item placeholder; within real keys the column's comparison; two keys are
equal only within one column and one category. -/
theorem C04_key_order_shape {K : Type} (cmpK : Nat → K → K → Ordering) (a b : AttKey K) :
    (a.attnum < b.attnum → cmpAttEntries cmpK a b = .lt) ∧
    (a.attnum = b.attnum → a.cat = .norm → b.cat = .norm → cmpAttEntries cmpK a b = cmpK a.attnum a.key b.key) ∧
    (a.attnum = b.attnum →
      (a.cat, b.cat) ∈ [(Cat.norm, Cat.nullKey), (.norm, .emptyItem), (.norm, .nullItem),
                        (.nullKey, .emptyItem), (.nullKey, .nullItem), (.emptyItem, .nullItem)] →
      cmpAttEntries cmpK a b = .lt) ∧
    (cmpAttEntries cmpK a b = .eq → a.attnum = b.attnum ∧ a.cat = b.cat) ∧
    (a.attnum = b.attnum → a.cat = b.cat → a.cat ≠ .norm → cmpAttEntries cmpK a b = .eq) := by
  obtain ⟨n, ca, ka⟩ := a
  obtain ⟨m, cb, kb⟩ := b
  refine ⟨?_, ?_, ?_, ?_, ?_⟩
  · intro h
    simp only at h
    simp [cmpAttEntries, h, Nat.ne_of_lt h]
  · intro h1 h2 h3
    simp only at h1 h2 h3
    simp [cmpAttEntries, cmpEntries, h1, h2, h3]
  · intro h1 h2
    simp only at h1
    simp only [List.mem_cons, Prod.mk.injEq, List.not_mem_nil, or_false] at h2
    simp only [cmpAttEntries, cmpEntries, h1]
    rcases h2 with h | h | h | h | h | h <;> obtain ⟨rfl, rfl⟩ := h <;> simp [Cat.code]
  · intro h
    unfold cmpAttEntries cmpEntries at h
    simp only at h
    split at h
    · split at h <;> simp at h
    · rename_i h1
      split at h
      · split at h <;> simp at h
      · rename_i h2; exact ⟨by simpa using h1, by simpa using h2⟩
  · intro h1 h2 h3
    simp only at h1 h2 h3
    subst h1; subst h2
    simp [cmpAttEntries, cmpEntries, h3]

example : ∃ a b : AttKey Nat, a.attnum = b.attnum ∧ a.cat = .norm ∧ b.cat = .nullItem :=
  ⟨⟨1, .norm, 5⟩, ⟨1, .nullItem, 0⟩, rfl, rfl, rfl⟩

/-- **C05.** Merging two strictly sorted item lists (any comparison that is a total preorder, so both item
orders) gives a strictly sorted list whose elements all come from the inputs, which contains every element of the
second list, and which contains every element of the first one that does not compare equal to an element of the
second. -/
theorem C05_merge_is_union {α : Type} (cmp : α → α → Ordering) [TransCmp cmp] (a b : List α)
    (ha : SSorted cmp a) (hb : SSorted cmp b) :
    SSorted cmp (mergeItems cmp a b) ∧
    (∀ x ∈ mergeItems cmp a b, x ∈ a ∨ x ∈ b) ∧
    (∀ x ∈ b, x ∈ mergeItems cmp a b) ∧
    (∀ x ∈ a, x ∈ mergeItems cmp a b ∨ ∃ y ∈ b, cmp x y = .eq) ∧
    (mergeItems cmp a b).length ≤ a.length + b.length :=
  ⟨merge_sorted cmp a b ha hb, merge_mem cmp a b, merge_mem_right cmp a b, merge_mem_left' cmp a b,
   merge_length cmp a b⟩

/-- **C05**, row pointers: in either item order, the set of row pointers in the merged list is exactly the union,
and no (row pointer, info) pair is repeated. -/
theorem C05_merge_rows {V : Type} (alt : Bool) (cmpV : V → V → Ordering) [TransCmp cmpV] (a b : List (Item V))
    (p : Iptr) :
    (∃ x ∈ mergeItems (cmpItem alt cmpV) a b, x.iptr = p) ↔ (∃ x ∈ a, x.iptr = p) ∨ (∃ x ∈ b, x.iptr = p) := by
  constructor
  · rintro ⟨x, hx, rfl⟩
    rcases merge_mem _ a b x hx with h | h
    · exact Or.inl ⟨x, h, rfl⟩
    · exact Or.inr ⟨x, h, rfl⟩
  · rintro (⟨x, hx, rfl⟩ | ⟨x, hx, rfl⟩)
    · obtain ⟨y, hy, he⟩ := merge_mem_left (cmpItem alt cmpV) a b x hx
      exact ⟨y, hy, ((C03_item_order_eq alt cmpV x y).1 he).1.symm⟩
    · exact ⟨x, merge_mem_right _ a b x hx, rfl⟩

example : SSorted (cmpItem false (compare : Nat → Nat → Ordering)) [⟨⟨1, 1⟩, none⟩, ⟨⟨1, 3⟩, some 4⟩] ∧
    SSorted (cmpItem false (compare : Nat → Nat → Ordering)) [⟨⟨1, 2⟩, none⟩, ⟨⟨1, 3⟩, some 7⟩] ∧
    mergeItems (cmpItem false (compare : Nat → Nat → Ordering)) [⟨⟨1, 1⟩, none⟩, ⟨⟨1, 3⟩, some 4⟩]
      [⟨⟨1, 2⟩, none⟩, ⟨⟨1, 3⟩, some 7⟩] = [⟨⟨1, 1⟩, none⟩, ⟨⟨1, 2⟩, none⟩, ⟨⟨1, 3⟩, some 7⟩] := by
  refine ⟨by decide, by decide, by simp [mergeItems, cmpItem, cmpIptr]⟩

end Rum.Props
