import Verif.Sorted
/-
Sorting and duplicate removal, used by several extraction functions.
-/
set_option linter.unusedSectionVars false
namespace Rum
open Std

variable {α : Type} (cmp : α → α → Ordering)

/-- `qsort`/`qsort_arg` with comparator `cmp`: a sorting permutation. When no two distinct elements compare equal the
result is the only sorted permutation, so the algorithm does not matter. -/
def qsort (l : List α) : List α := l.mergeSort (fun a b => (cmp a b).isLE)

/-- The in-place "unique" loop: `dr` is the last kept element, `tmp` runs over the rest.
/repo/src/rum_arr_utils.c:799-812, /repo/src/rumutil.c:846-870. -/
def uniqLoop (dr : α) : List α → List α
  | [] => [dr]
  | tmp :: rest => if cmp tmp dr ≠ .eq then dr :: uniqLoop tmp rest else uniqLoop dr rest

def uniq : List α → List α
  | [] => []
  | a :: l => uniqLoop cmp a l

variable [TransCmp cmp]

theorem qsort_perm (l : List α) : (qsort cmp l).Perm l := List.mergeSort_perm _ _

theorem mem_qsort (l : List α) (x : α) : x ∈ qsort cmp l ↔ x ∈ l := (qsort_perm cmp l).mem_iff

theorem qsort_sorted (l : List α) : (qsort cmp l).Pairwise (fun a b => (cmp a b).isLE = true) := by
  apply List.pairwise_mergeSort
  · intro a b c h1 h2; exact TransCmp.isLE_trans h1 h2
  · intro a b
    rw [OrientedCmp.eq_swap (cmp := cmp) (a := b) (b := a)]
    cases cmp a b <;> simp

theorem uniqLoop_mem [LawfulEqCmp cmp] (l : List α) : ∀ (a x : α), x ∈ uniqLoop cmp a l ↔ x = a ∨ x ∈ l := by
  induction l with
  | nil => intro a x; simp [uniqLoop]
  | cons b l ih =>
    intro a x
    rw [uniqLoop]
    split
    · simp [ih]
    · next h =>
      simp only [ne_eq, Classical.not_not] at h
      have := LawfulEqCmp.eq_of_compare h
      subst this
      simp [ih]

theorem uniqLoop_sorted (l : List α) : ∀ a : α, (a :: l).Pairwise (fun a b => (cmp a b).isLE = true) →
    SSorted cmp (uniqLoop cmp a l) ∧ ∀ x ∈ uniqLoop cmp a l, x = a ∨ cmp a x = .lt := by
  induction l with
  | nil => intro a _; simp [uniqLoop, SSorted]
  | cons b l ih =>
    intro a h
    rw [List.pairwise_cons] at h
    have hb := h.1 b (by simp)
    rw [uniqLoop]
    split
    · next hne =>
      have hlt : cmp a b = .lt := by
        rw [OrientedCmp.eq_swap (cmp := cmp) (a := b) (b := a)] at hne
        cases hc : cmp a b <;> simp_all
      obtain ⟨s1, s2⟩ := ih b h.2
      have hx : ∀ x ∈ uniqLoop cmp b l, cmp a x = .lt := by
        intro x hx
        rcases s2 x hx with rfl | hh
        · exact hlt
        · exact TransCmp.lt_trans hlt hh
      refine ⟨List.pairwise_cons.2 ⟨hx, s1⟩, ?_⟩
      intro x hx'
      rcases List.mem_cons.1 hx' with rfl | hx'
      · exact Or.inl rfl
      · exact Or.inr (hx x hx')
    · apply ih
      rw [List.pairwise_cons]
      exact ⟨fun x hx => h.1 x (by simp [hx]), (List.pairwise_cons.1 h.2).2⟩

/-- Sort and unique: strictly sorted, same elements. -/
theorem sortUniq_sorted (l : List α) : SSorted cmp (uniq cmp (qsort cmp l)) := by
  have h := qsort_sorted cmp l
  cases hq : qsort cmp l with
  | nil => simp [uniq]
  | cons a l' => rw [hq] at h; exact (uniqLoop_sorted cmp l' a h).1

theorem mem_sortUniq [LawfulEqCmp cmp] (l : List α) (x : α) : x ∈ uniq cmp (qsort cmp l) ↔ x ∈ l := by
  rw [← mem_qsort cmp l x]
  cases hq : qsort cmp l with
  | nil => simp [uniq]
  | cons a l' => simp [uniq, uniqLoop_mem]

theorem ssorted_nodup {l : List α} (h : SSorted cmp l) : l.Nodup := by
  refine h.imp ?_
  rintro a b hab rfl
  rw [ReflCmp.compare_self (cmp := cmp)] at hab; cases hab

end Rum
