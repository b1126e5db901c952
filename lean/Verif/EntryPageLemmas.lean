import Verif.EntryPage
set_option linter.unusedSectionVars false
namespace Rum.Entry
open Rum Std

variable {K T : Type}

theorem searchLoop_ok (cmpAt : Nat → Ordering) (lo0 hi0 : Nat)
    (mono : ∀ i j, lo0 ≤ i → i < j → j < hi0 → cmpAt j ≠ .lt → cmpAt i = .gt)
    (fuel : Nat) : ∀ lo hi, hi - lo ≤ fuel → lo0 ≤ lo → lo ≤ hi → hi ≤ hi0 →
    (∀ i, lo0 ≤ i → i < lo → cmpAt i = .gt) → (∀ i, hi ≤ i → i < hi0 → cmpAt i = .lt) →
    (∃ m, searchLoop cmpAt fuel lo hi = (true, m) ∧ lo0 ≤ m ∧ m < hi0 ∧ cmpAt m = .eq) ∨
    (∃ h, searchLoop cmpAt fuel lo hi = (false, h) ∧ lo0 ≤ h ∧ h ≤ hi0 ∧ (∀ i, lo0 ≤ i → i < h → cmpAt i = .gt) ∧
      ∀ i, h ≤ i → i < hi0 → cmpAt i = .lt) := by
  induction fuel with
  | zero =>
    intro lo hi h1 h2 h3 h4 h5 h6
    right
    exact ⟨hi, rfl, by omega, h4, fun i a b => h5 i a (by omega), h6⟩
  | succ fuel ih =>
    intro lo hi h1 h2 h3 h4 h5 h6
    unfold searchLoop
    by_cases hlt : hi > lo
    · rw [if_pos hlt]
      have hm1 : lo ≤ lo + (hi - lo) / 2 := by omega
      have hm2 : lo + (hi - lo) / 2 < hi := by omega
      generalize lo + (hi - lo) / 2 = mid at *
      simp only
      cases hc : cmpAt mid with
      | eq => exact Or.inl ⟨mid, rfl, by omega, by omega, hc⟩
      | gt =>
        refine ih (mid + 1) hi (by omega) (by omega) (by omega) h4 (fun i a b => ?_) h6
        by_cases he : i = mid
        · subst he; exact hc
        · exact mono i mid a (by omega) (by omega) (by rw [hc]; decide)
      | lt =>
        refine ih lo mid (by omega) h2 hm1 (by omega) h5 (fun i a b => ?_)
        by_cases he : i = mid
        · subst he; exact hc
        · by_contra hne
          have := mono mid i (by omega) (by omega) b hne
          rw [hc] at this; cases this
    · rw [if_neg hlt]
      right
      exact ⟨hi, rfl, by omega, h4, fun i a b => h5 i a (by omega), h6⟩

theorem findIdx_beq {l : List Nat} {b : Nat} :
    (∀ i, l.findIdx? (· == b) = some i → l[i]? = some b) ∧ (l.findIdx? (· == b) = none → b ∉ l) := by
  constructor
  · intro i h
    rw [List.findIdx?_eq_some_iff_getElem] at h
    obtain ⟨h1, h2, -⟩ := h
    rw [List.getElem?_eq_getElem h1]
    simp only [beq_iff_eq] at h2
    rw [h2]
  · intro h hb
    rw [List.findIdx?_eq_none_iff] at h
    have := h b hb
    simp at this

theorem collect_eq (off : Nat) (entry : ETuple K) (l : List (ETuple K)) : ∀ i, i ≤ off → off ≤ i + l.length →
    collect off entry i l = l.take (off - i) ++ entry :: l.drop (off - i) := by
  induction l with
  | nil =>
    intro i h1 h2
    have : off = i := by simp at h2; omega
    simp [collect, this]
  | cons t l ih =>
    intro i h1 h2
    rw [collect]
    by_cases h : i = off
    · subst h
      rw [if_pos rfl]
      have hnone : ∀ (l : List (ETuple K)) j, i < j → collect i entry j l = l := by
        intro l
        induction l with
        | nil => intro j hj; simp [collect]; omega
        | cons a l ih => intro j hj; rw [collect, if_neg (by omega), ih (j + 1) (by omega)]
      rw [hnone l (i + 1) (by omega)]
      simp
    · rw [if_neg h, ih (i + 1) (by omega) (by simp at h2; omega)]
      have : off - i = (off - (i + 1)) + 1 := by omega
      rw [this]; simp

theorem used_append (a b : List (ETuple K)) : used (a ++ b) = used a + used b := by
  simp [used]

theorem used_cons (a : ETuple K) (b : List (ETuple K)) : used (a :: b) = a.space + used b := by
  simp [used]

theorem used_nil : used ([] : List (ETuple K)) = 0 := rfl

theorem distribute_append (half : Nat) (l : List (ETuple K)) : ∀ s, (distribute half s l).1 ++ (distribute half s l).2 = l := by
  induction l with
  | nil => intro s; rfl
  | cons t l ih =>
    intro s
    rw [distribute]
    split
    · next h =>
      have hnil : ∀ (l : List (ETuple K)), (distribute half s l).1 = [] := by
        intro l
        induction l with
        | nil => rfl
        | cons a l ih => rw [distribute, if_pos h]; exact ih
      have := ih s
      rw [hnil] at this
      simp only [hnil, List.nil_append] at this ⊢
      rw [this]
    · have := ih (s + t.space)
      simp only [List.cons_append, this]

/-- The left part: at most half before its last tuple; more than half if something is left for the right. -/
theorem distribute_size (half : Nat) (M : Nat) (l : List (ETuple K)) (hM : ∀ t ∈ l, t.space ≤ M) : ∀ s, s ≤ half + M →
    s + used (distribute half s l).1 ≤ half + M ∧ ((distribute half s l).2 ≠ [] → half < s + used (distribute half s l).1) ∧
    (half < s + used (distribute half s l).1 ∨ (distribute half s l).2 = []) := by
  induction l with
  | nil => intro s hs; simp [distribute, used_nil]; exact hs
  | cons t l ih =>
    intro s hs
    rw [distribute]
    split
    · next h =>
      have := ih (fun t ht => hM t (by simp [ht])) s hs
      refine ⟨this.1, fun _ => ?_, Or.inl ?_⟩ <;> (simp only; omega)
    · next h =>
      have hb := hM t (by simp)
      have := ih (fun t ht => hM t (by simp [ht])) (s + t.space) (by omega)
      simp only [used_cons]
      refine ⟨by omega, fun hne => ?_, ?_⟩
      · have := this.2.1 hne; omega
      · rcases this.2.2 with h' | h'
        · left; omega
        · right; exact h'

end Rum.Entry
