import Mathlib.Order.Defs.LinearOrder
import Mathlib.Order.Basic
/-
Strictly sorted lists under a comparison function, and a bridge to linear orders.
-/
namespace Rum
open Std

/-- Strictly increasing under `cmp` (in particular no two elements compare equal). -/
abbrev SSorted {α : Type} (cmp : α → α → Ordering) (l : List α) : Prop :=
  l.Pairwise (fun a b => cmp a b = .lt)

section key
variable {α : Type} (cmp : α → α → Ordering) [TransCmp cmp]

/-- Elements that compare equal. -/
def cmpSetoid : Setoid α where
  r a b := cmp a b = .eq
  iseqv := ⟨fun _ => ReflCmp.compare_self, fun h => OrientedCmp.eq_symm h, fun h g => TransCmp.eq_trans h g⟩

/-- Every transitive comparison is the comparison of keys in some linear order
(namely the quotient by "compares equal"). -/
theorem exists_key : ∃ (K : Type) (_ : LinearOrder K) (key : α → K),
    (∀ a b, cmp a b = .lt ↔ key a < key b) ∧ (∀ a b, cmp a b = .eq ↔ key a = key b) ∧
    (∀ a b, cmp a b = .gt ↔ key b < key a) := by
  classical
  let K := Quotient (cmpSetoid cmp)
  let le : K → K → Prop := Quotient.lift₂ (fun a b => (cmp a b).isLE = true) (by
    intro a b c d (h1 : cmp a c = .eq) (h2 : cmp b d = .eq)
    simp only [eq_iff_iff]
    rw [TransCmp.congr_left h1, TransCmp.congr_right h2])
  let inst : LinearOrder K :=
    { le := le
      le_refl := by
        intro a; refine Quotient.inductionOn a (fun a => ?_)
        exact ReflCmp.isLE_rfl
      le_trans := by
        intro a b c
        refine Quotient.inductionOn₃ a b c (fun a b c => ?_)
        exact TransCmp.isLE_trans
      le_antisymm := by
        intro a b
        refine Quotient.inductionOn₂ a b (fun a b => ?_)
        intro h1 h2
        exact Quotient.sound (OrientedCmp.isLE_antisymm h1 h2)
      le_total := by
        intro a b
        refine Quotient.inductionOn₂ a b (fun a b => ?_)
        show (cmp a b).isLE = true ∨ (cmp b a).isLE = true
        rw [OrientedCmp.eq_swap (cmp := cmp) (a := b) (b := a)]
        cases cmp a b <;> simp
      toDecidableLE := Classical.decRel _ }
  have hle : ∀ a b : α, (Quotient.mk (cmpSetoid cmp) a ≤ Quotient.mk (cmpSetoid cmp) b) ↔ (cmp a b).isLE = true :=
    fun a b => Iff.rfl
  have hlt : ∀ a b : α, cmp a b = .lt ↔ Quotient.mk (cmpSetoid cmp) a < Quotient.mk (cmpSetoid cmp) b := by
    intro a b
    rw [lt_iff_le_not_ge, hle, hle, OrientedCmp.eq_swap (cmp := cmp) (a := b) (b := a)]
    cases cmp a b <;> simp
  refine ⟨K, inst, Quotient.mk (cmpSetoid cmp), hlt, ?_, ?_⟩
  · intro a b
    constructor
    · intro h; exact Quotient.sound h
    · intro h; exact Quotient.exact h
  · intro a b
    rw [OrientedCmp.gt_iff_lt]; exact hlt b a

/-- Two strictly sorted lists with the same members are equal. -/
theorem ssorted_ext {l m : List α} (hl : SSorted cmp l) (hm : SSorted cmp m) (hlm : ∀ z, z ∈ l ↔ z ∈ m) : l = m := by
  have hirr : ∀ a, cmp a a ≠ .lt := fun a => by rw [ReflCmp.compare_self (cmp := cmp)]; decide
  have anti : ∀ a b, cmp a b = .lt → cmp b a = .lt → False := fun a b h1 h2 => hirr a (TransCmp.lt_trans h1 h2)
  induction l generalizing m with
  | nil =>
    cases m with
    | nil => rfl
    | cons b m => exact absurd ((hlm b).2 (by simp)) (by simp)
  | cons a l ih =>
    cases m with
    | nil => exact absurd ((hlm a).1 (by simp)) (by simp)
    | cons b m =>
      have hl' := List.pairwise_cons.1 hl
      have hm' := List.pairwise_cons.1 hm
      have hab : a = b := by
        rcases List.mem_cons.1 ((hlm a).1 (by simp)) with h | h
        · exact h
        · rcases List.mem_cons.1 ((hlm b).2 (by simp)) with h' | h'
          · exact h'.symm
          · exact absurd (hl'.1 b h') (fun e => anti _ _ e (hm'.1 a h))
      subst hab
      congr 1
      apply ih hl'.2 hm'.2
      intro z
      constructor
      · intro hz
        rcases List.mem_cons.1 ((hlm z).1 (by simp [hz])) with rfl | h
        · exact absurd (hl'.1 z hz) (hirr z)
        · exact h
      · intro hz
        rcases List.mem_cons.1 ((hlm z).2 (by simp [hz])) with rfl | h
        · exact absurd (hm'.1 z hz) (hirr z)
        · exact h

end key

end Rum
