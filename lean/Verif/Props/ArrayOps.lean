import Verif.ArrayOps
import Mathlib.Data.List.Perm.Subperm
/- Property theorems C31 and C32: array operators and distances through the index. -/
set_option linter.unusedSectionVars false
namespace Rum.Props
open Std Rum Rum.Arr

variable {F : Type} (fl : Float8 F) {α : Type} (cmp : α → α → Ordering) [TransCmp cmp] [LawfulEqCmp cmp] [DecidableEq α]

theorem interLoop_eq (as bs : List α) (ha : SSorted cmp as) (hb : SSorted cmp bs) :
    interLoop cmp as bs = (bs.filter (fun b => as.contains b)).length := by
  fun_induction interLoop cmp as bs with
  | case1 bs =>
    symm; rw [List.length_eq_zero_iff, List.filter_eq_nil_iff]; simp
  | case2 => simp
  | case3 a as b bs hc ih =>
    rw [ih (List.pairwise_cons.1 ha).2 hb]
    congr 1
    apply List.filter_congr
    intro x hx
    have hlt : cmp a x = .lt := by
      rcases List.mem_cons.1 hx with rfl | hx
      · exact hc
      · exact TransCmp.lt_trans hc ((List.pairwise_cons.1 hb).1 x hx)
    have hne : x ≠ a := by rintro rfl; rw [ReflCmp.compare_self (cmp := cmp)] at hlt; cases hlt
    simp [hne]
  | case4 a as b bs hc ih =>
    rw [ih ha (List.pairwise_cons.1 hb).2, List.filter_cons_of_neg]
    simp only [List.contains_eq_mem, List.mem_cons, not_or, decide_eq_true_eq]
    have hc' : cmp b a = .lt := OrientedCmp.gt_iff_lt.1 hc
    constructor
    · rintro rfl; rw [ReflCmp.compare_self (cmp := cmp)] at hc; cases hc
    · intro hm
      have h1 := (List.pairwise_cons.1 ha).1 b hm
      rw [OrientedCmp.eq_swap (cmp := cmp), h1] at hc'; cases hc'
  | case5 a as b bs hc ih =>
    have := LawfulEqCmp.eq_of_compare hc
    subst this
    rw [ih (List.pairwise_cons.1 ha).2 (List.pairwise_cons.1 hb).2, List.filter_cons_of_pos (by simp), List.length_cons]
    congr 2
    apply List.filter_congr
    intro x hx
    have hlt := (List.pairwise_cons.1 hb).1 x hx
    have hne : x ≠ a := by rintro rfl; rw [ReflCmp.compare_self (cmp := cmp)] at hlt; cases hlt
    simp [hne]

theorem simple_sorted (a : List α) : SSorted cmp (simple cmp a) := sortUniq_sorted cmp a

theorem mem_simple (a : List α) (x : α) : x ∈ simple cmp a ↔ x ∈ a := mem_sortUniq cmp a x

theorem simple_nil (a : List α) : simple cmp a = [] ↔ a = [] := by
  constructor
  · intro h
    rw [List.eq_nil_iff_forall_not_mem] at h ⊢
    intro x hx; exact h x ((mem_simple cmp a x).2 hx)
  · rintro rfl; simp [simple, qsort, uniq]

theorem checks_any (row query : List α) :
    (checks cmp row query).any (fun c => c.check) = true ↔ ∃ x, x ∈ row ∧ x ∈ query := by
  simp only [checks, List.any_map, List.any_eq_true, Function.comp_apply, mem_simple]
  constructor
  · rintro ⟨x, hx, h⟩
    split at h
    · next h' => exact ⟨x, by simpa [mem_simple] using h', hx⟩
    · cases h
  · rintro ⟨x, h1, h2⟩
    exact ⟨x, h2, by simp [mem_simple, h1]⟩

theorem checks_count (row query : List α) :
    ((checks cmp row query).filter (fun c => c.check)).length = interLoop cmp (simple cmp row) (simple cmp query) := by
  rw [interLoop_eq cmp _ _ (simple_sorted cmp row) (simple_sorted cmp query)]
  simp only [checks, List.filter_map, List.length_map]
  congr 1
  apply List.filter_congr
  intro x _
  simp only [Function.comp_apply]
  split <;> simp_all

theorem checks_info (row query : List α) (h : ∃ x, x ∈ row ∧ x ∈ query) :
    (checks cmp row query).findSome? (fun c => c.info) = some (simple cmp row).length := by
  have h1 := (checks_any cmp row query).2 h
  have : ∀ qs : List α, ((qs.map (fun k => if (simple cmp row).contains k then (⟨true, some (simple cmp row).length⟩ : Chk)
      else ⟨false, none⟩)).any (fun c => c.check)) = true →
      (qs.map (fun k => if (simple cmp row).contains k then (⟨true, some (simple cmp row).length⟩ : Chk) else ⟨false, none⟩)).findSome?
        (fun c => c.info) = some (simple cmp row).length := by
    intro qs
    induction qs with
    | nil => simp
    | cons q qs ih =>
      intro h
      rw [List.map_cons, List.findSome?_cons]
      rw [List.map_cons, List.any_cons] at h
      split
      · next h' => split at h' <;> simp_all
      · next h' =>
        apply ih
        split at h' <;> simp_all
  exact this _ h1

theorem count_pos (row query : List α) :
    interLoop cmp (simple cmp row) (simple cmp query) > 0 ↔ ∃ x, x ∈ row ∧ x ∈ query := by
  rw [← checks_count, ← checks_any cmp, gt_iff_lt, List.length_pos_iff, List.any_eq_true]
  rw [ne_eq, List.filter_eq_nil_iff]
  simp

theorem simple_length_le (row query : List α) (h : ∀ x ∈ row, x ∈ query) :
    (simple cmp row).length ≤ (simple cmp query).length := by
  have hnd := ssorted_nodup cmp (simple_sorted cmp row)
  have hsub : simple cmp row ⊆ simple cmp query := by
    intro x hx; rw [mem_simple] at *; exact h x hx
  exact (List.subperm_of_subset hnd hsub).length_le

theorem decision_visited (fn : SimFn) (thr : F) (s : Strategy) (row query : List α)
    (h : visited cmp (searchMode s (simple cmp query).length) row query = true) :
    indexDecision fl cmp fn thr s row query = consistent fl fn thr s (checks cmp row query) := by
  unfold indexDecision; simp [h]

theorem decision_not_visited (fn : SimFn) (thr : F) (s : Strategy) (row query : List α)
    (h : visited cmp (searchMode s (simple cmp query).length) row query = false) :
    indexDecision fl cmp fn thr s row query = (false, false) := by
  unfold indexDecision; simp [h]

/-- **C31 (&&, @>, <@, =).** For every row and every query array: a row satisfying the operator is returned (possibly with
recheck), and a row returned without recheck satisfies it. For `&&` and `@>` no recheck is requested: the answer is
exact. -/
theorem C31_array_search_agrees (fn : SimFn) (thr : F) (s : Strategy) (hs : s ≠ .similar) (row query : List α) (sim : Bool) :
    (Holds s row query sim → (indexDecision fl cmp fn thr s row query).1 = true) ∧
    (indexDecision fl cmp fn thr s row query = (true, false) → Holds s row query sim) ∧
    (s = .overlap ∨ s = .contains → (indexDecision fl cmp fn thr s row query).2 = false) := by
  have hpos : Holds s row query sim → visited cmp (searchMode s (simple cmp query).length) row query = true := by
    intro h
    cases s with
    | similar => exact absurd rfl hs
    | overlap => exact (checks_any cmp row query).2 h
    | contains =>
      simp only [searchMode]
      split
      · next h' =>
        obtain ⟨x, hx⟩ := List.exists_mem_of_length_pos h'
        rw [mem_simple] at hx
        exact (checks_any cmp row query).2 ⟨x, h x hx, hx⟩
      · rfl
    | contained =>
      simp only [searchMode, visited, Bool.or_eq_true, checks_any, List.isEmpty_iff, simple_nil]
      cases row with
      | nil => right; rfl
      | cons a l => left; exact ⟨a, by simp, h a (by simp)⟩
    | equal =>
      have h : row = query := h
      subst h
      simp only [searchMode]
      split
      · next h' =>
        obtain ⟨x, hx⟩ := List.exists_mem_of_length_pos h'
        rw [mem_simple] at hx
        exact (checks_any cmp row row).2 ⟨x, hx, hx⟩
      · next h' =>
        have : simple cmp row = [] := by simpa using h'
        simp [visited, this]
  have hcons : (Holds s row query sim → (consistent fl fn thr s (checks cmp row query)).1 = true) ∧
      (consistent fl fn thr s (checks cmp row query) = (true, false) → Holds s row query sim) ∧
      (s = .overlap ∨ s = .contains → (consistent fl fn thr s (checks cmp row query)).2 = false) := by
    cases s with
    | similar => exact absurd rfl hs
    | overlap =>
      simp only [consistent, Holds]
      rw [← checks_any cmp row query]
      refine ⟨id, fun h => (Prod.mk.inj h).1, fun _ => trivial⟩
    | contains =>
      have hall : (checks cmp row query).all (fun c => c.check) = true ↔ ∀ x ∈ query, x ∈ row := by
        simp only [checks, List.all_map, List.all_eq_true, Function.comp_apply, mem_simple]
        constructor
        · intro h x hx
          have := h x hx
          split at this
          · next h' => simpa [mem_simple] using h'
          · cases this
        · intro h x hx
          simp [mem_simple, h x hx]
      exact ⟨hall.2, fun h => hall.1 (Prod.mk.inj h).1, fun _ => rfl⟩
    | contained =>
      refine ⟨?_, fun h => by simp [consistent] at h, by simp⟩
      intro h
      have hl := simple_length_le cmp row query h
      simp only [consistent, checks, List.length_map, List.all_map, List.all_eq_true, Function.comp_apply]
      intro x _
      by_cases hc : (simple cmp row).contains x = true
      · simp only [hc, if_true]; simpa using hl
      · simp only [hc]; simp
    | equal =>
      refine ⟨?_, fun h => by simp [consistent] at h, by simp⟩
      intro h
      have h : row = query := h
      subst h
      simp only [consistent, checks, List.length_map, List.all_map, List.all_eq_true, Function.comp_apply]
      intro x hx
      have hc : (simple cmp row).contains x = true := by simpa using hx
      simp only [hc, if_true]; simp
  cases hv : visited cmp (searchMode s (simple cmp query).length) row query with
  | true => rw [decision_visited fl cmp fn thr s row query hv]; exact hcons
  | false =>
    rw [decision_not_visited fl cmp fn thr s row query hv]
    refine ⟨fun h => ?_, fun h => ?_, fun _ => rfl⟩
    · rw [hpos h] at hv; cases hv
    · cases h

-- non-vacuity: a row matching all four operators, and one refused
example : Holds .overlap [1, 2] [2, 3] false ∧ Holds .contains [1, 2, 2] [2] false ∧ Holds .contained [2, 2] [2, 3] false ∧
    ¬ Holds .contained [1, 2] [2, 3] false := by simp [Holds]

/-- **C31 (%).** For rows and queries of any size, any similarity function and any threshold that zero similarity does not
reach, the index decision for `%` is exactly the operator's value, without recheck. -/
theorem C31_similarity_exact_partial (fn : SimFn) (thr : F) (row query : List α)
    (h0 : ∀ na nb, 0 < na → 0 < nb → fl.ge (getSimilarity fl fn na nb 0) thr = false) :
    indexDecision fl cmp fn thr .similar row query = (similarOp fl cmp fn thr row query, false) := by
  unfold similarOp
  by_cases h : ∃ x, x ∈ row ∧ x ∈ query
  · rw [decision_visited fl cmp fn thr .similar row query ((checks_any cmp row query).2 h)]
    simp only [consistent, checks_count]
    rw [if_pos ((count_pos cmp row query).2 h), checks_info cmp row query h]
    obtain ⟨x, h1, h2⟩ := h
    have n1 : row ≠ [] := List.ne_nil_of_mem h1
    have n2 : query ≠ [] := List.ne_nil_of_mem h2
    simp [n1, n2, checks]
  · rw [decision_not_visited fl cmp fn thr .similar row query
      (by rw [← Bool.not_eq_true]; exact fun hh => h ((checks_any cmp row query).1 hh))]
    split
    · rfl
    · next hne =>
      simp only [List.isEmpty_iff, not_or] at hne
      have hz : interLoop cmp (simple cmp row) (simple cmp query) = 0 := by
        rcases Nat.eq_zero_or_pos (interLoop cmp (simple cmp row) (simple cmp query)) with hz | hz
        · exact hz
        · exact absurd ((count_pos cmp row query).1 hz) h
      rw [hz, h0]
      · exact List.length_pos_iff.2 (by simpa [simple_nil] using hne.1)
      · exact List.length_pos_iff.2 (by simpa [simple_nil] using hne.2)

/-- Natural numbers as a stand-in for float8 with the `overlap` similarity (only `ofInt` and `ge` matter). -/
def natFloat : Float8 Nat where
  ofInt n := n
  add := (· + ·)
  sub := (· - ·)
  mul := (· * ·)
  div a b := a / b
  sqrt n := n
  inf := 1000000
  ge a b := decide (b ≤ a)
  isZero n := decide (n = 0)

-- the hypothesis of the theorem is met by a positive threshold
example : ∀ na nb, 0 < na → 0 < nb → natFloat.ge (getSimilarity natFloat .overlap na nb 0) 1 = false := by
  simp [natFloat, getSimilarity]

/-- **C31 is violated for `%` at threshold 0** (the smallest allowed value of rum.array_similarity_threshold): the operator
is true for disjoint arrays, the index does not return the row. -/
theorem C31_similarity_violated :
    ∃ row query : List Nat, similarOp natFloat compare .overlap 0 row query = true ∧
      (indexDecision natFloat compare .overlap 0 .similar row query).1 = false :=
  ⟨[1], [2], by decide +kernel, by decide +kernel⟩

/-- **C32.** For non-empty row and query arrays and every similarity function, the distance computed inside the index is
the distance of the operator. -/
theorem C32_array_distance_agrees_partial (fn : SimFn) (zero : F) (row query : List α) (hr : row ≠ []) (hq : query ≠ [])
    (h0 : ∀ na nb, 0 < na → 0 < nb → getSimilarity fl fn na nb 0 = zero) :
    ordering fl fn zero (checks cmp row query) = distanceOp fl cmp fn zero row query := by
  unfold ordering distanceOp
  simp only [checks_count]
  rw [if_neg (c := row.isEmpty = true ∨ query.isEmpty = true) (by simp [hr, hq])]
  by_cases h : ∃ x, x ∈ row ∧ x ∈ query
  · rw [if_pos ((count_pos cmp row query).2 h), checks_info cmp row query h]
    simp [checks]
  · have hz : interLoop cmp (simple cmp row) (simple cmp query) = 0 := by
      rcases Nat.eq_zero_or_pos (interLoop cmp (simple cmp row) (simple cmp query)) with hz | hz
      · exact hz
      · exact absurd ((count_pos cmp row query).1 hz) h
    rw [hz, if_neg (by omega), h0]
    · exact List.length_pos_iff.2 (by simpa [simple_nil] using hr)
    · exact List.length_pos_iff.2 (by simpa [simple_nil] using hq)

example : ∀ na nb, 0 < na → 0 < nb → getSimilarity natFloat .jaccard na nb 0 = 0 := by
  simp [natFloat, getSimilarity]

/-- **C32 is violated for an empty array**: the operator returns 0, the index computes infinity. -/
theorem C32_empty_array_violated :
    distanceOp natFloat compare .jaccard 0 ([] : List Nat) [1] = 0 ∧
      ordering natFloat .jaccard 0 (checks compare ([] : List Nat) [1]) = natFloat.inf ∧ natFloat.inf ≠ 0 := by
  refine ⟨by decide +kernel, by decide +kernel, by decide⟩

end Rum.Props
