import Verif.Order
import Verif.Sorted
namespace Rum
open Std

/-- rumMergeRumItems, /repo/src/rumdatapage.c:367-408: on equal items the copy from
`b` is kept and both advance. -/
def mergeItems {α : Type} (cmp : α → α → Ordering) : List α → List α → List α
  | [], bs => bs
  | as, [] => as
  | a :: as, b :: bs =>
    match cmp a b with
    | .gt => b :: mergeItems cmp (a :: as) bs
    | .eq => b :: mergeItems cmp as bs
    | .lt => a :: mergeItems cmp as (b :: bs)
termination_by as bs => as.length + bs.length

section
variable {α : Type} (cmp : α → α → Ordering)

theorem merge_mem (as bs : List α) : ∀ x ∈ mergeItems cmp as bs, x ∈ as ∨ x ∈ bs := by
  fun_induction mergeItems cmp as bs <;> grind

theorem merge_mem_right (as bs : List α) : ∀ x ∈ bs, x ∈ mergeItems cmp as bs := by
  fun_induction mergeItems cmp as bs <;> grind

theorem merge_mem_left' (as bs : List α) :
    ∀ x ∈ as, x ∈ mergeItems cmp as bs ∨ ∃ y ∈ bs, cmp x y = .eq := by
  fun_induction mergeItems cmp as bs <;> grind

theorem merge_mem_left (as bs : List α) [TransCmp cmp] :
    ∀ x ∈ as, ∃ y ∈ mergeItems cmp as bs, cmp x y = .eq := by
  intro x hx
  rcases merge_mem_left' cmp as bs x hx with h | ⟨y, hy, he⟩
  · exact ⟨x, h, ReflCmp.compare_self⟩
  · exact ⟨y, merge_mem_right cmp as bs y hy, he⟩

theorem merge_length (as bs : List α) : (mergeItems cmp as bs).length ≤ as.length + bs.length := by
  fun_induction mergeItems cmp as bs <;> grind

theorem merge_sorted (as bs : List α) [TransCmp cmp] (ha : SSorted cmp as) (hb : SSorted cmp bs) :
    SSorted cmp (mergeItems cmp as bs) := by
  obtain ⟨K, _, key, h1, h2, h3⟩ := exists_key cmp
  unfold SSorted at *
  simp only [h1] at *
  fun_induction mergeItems cmp as bs with
  | case1 => exact hb
  | case2 => exact ha
  | case3 a as b bs h ih =>
    rw [List.pairwise_cons] at *
    have := merge_mem cmp (a :: as) bs
    grind
  | case4 a as b bs h ih =>
    rw [List.pairwise_cons] at *
    have := merge_mem cmp as bs
    grind
  | case5 a as b bs h ih =>
    rw [List.pairwise_cons] at *
    have := merge_mem cmp as (b :: bs)
    grind
end
end Rum
