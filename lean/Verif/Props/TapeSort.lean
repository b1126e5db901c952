import Verif.TapeSort
import Verif.Props.QSort
import Mathlib.Algebra.BigOperators.Group.Finset.Basic
import Mathlib.Algebra.Order.BigOperators.Group.Finset
import Mathlib.Algebra.Order.Group.Multiset
/-!
# C77: the sort on tapes sorts

Heap, merge and Algorithm D of RUM's tuplesort: whatever the tuples are and however memory divides them into portions, all tuples come back, in order.
-/
namespace Rum.Props.TapeSort
open Rum Rum.QSort Rum.TapeSort Rum.Props.QSort Std

/-! ### The heap -/

section
variable {β : Type} {cmp : β → β → Ordering}

/-- No element comes before its parent. -/
def HeapOK (cmp : β → β → Ordering) (f : Nat → β) (n : Nat) : Prop := ∀ k, 0 < k → k < n → cmp (f ((k - 1) / 2)) (f k) ≠ .gt

theorem put_eq (f : Nat → β) (i : Nat) (x : β) : put f i x i = x := if_pos rfl
theorem put_ne (f : Nat → β) {i k : Nat} (x : β) (h : k ≠ i) : put f i x k = f k := if_neg h

theorem put_swap (f : Nat → β) (x : β) {i j lo hi : Nat} (h : i ≠ j) (hi1 : lo ≤ i) (hi2 : i < hi) (hj1 : lo ≤ j) (hj2 : j < hi) :
    Rearranged (put f j x) (put (put f j (f i)) i x) lo hi := by
  have : put (put f j (f i)) i x = swap (put f j x) i j := by
    funext k
    unfold swap put
    by_cases h1 : k = i
    · rw [if_pos h1, if_pos h1, if_pos rfl]
    · rw [if_neg h1, if_neg h1]
      by_cases h2 : k = j
      · rw [if_pos h2, if_pos h2, if_neg h]
      · rw [if_neg h2, if_neg h2, if_neg h2]
  rw [this]
  exact swap_rearranged _ hi1 hi2 hj1 hj2

variable [TransCmp cmp]

omit [TransCmp cmp] in
theorem ge_of_not_lt [OrientedCmp cmp] {x y : β} (h : cmp x y ≠ .lt) : cmp y x ≠ .gt := by
  rw [ne_eq, OrientedCmp.gt_iff_lt]; exact h

theorem heapUp_ok (x : β) (n m : Nat) : ∀ (j : Nat) (f : Nat → β), j ≤ m → j < n →
    (∀ k, 0 < k → k < n → k ≠ j → (k - 1) / 2 ≠ j → cmp (f ((k - 1) / 2)) (f k) ≠ .gt) →
    (∀ c, 0 < c → c < n → (c - 1) / 2 = j → cmp x (f c) ≠ .gt) →
    (∀ c, 0 < c → c < n → (c - 1) / 2 = j → 0 < j → cmp (f ((j - 1) / 2)) (f c) ≠ .gt) →
    HeapOK cmp (heapUp cmp x m j f) n ∧ Rearranged (put f j x) (heapUp cmp x m j f) 0 n := by
  have stop : ∀ (j : Nat) (f : Nat → β), j < n →
      (∀ k, 0 < k → k < n → k ≠ j → (k - 1) / 2 ≠ j → cmp (f ((k - 1) / 2)) (f k) ≠ .gt) →
      (∀ c, 0 < c → c < n → (c - 1) / 2 = j → cmp x (f c) ≠ .gt) → (0 < j → cmp (f ((j - 1) / 2)) x ≠ .gt) →
      HeapOK cmp (put f j x) n ∧ Rearranged (put f j x) (put f j x) 0 n := by
    intro j f hj hA hB hP
    refine ⟨fun k k1 k2 => ?_, .refl _ _ _⟩
    by_cases h1 : k = j
    · subst h1
      rw [put_eq, put_ne _ _ (by omega)]; exact hP k1
    · by_cases h2 : (k - 1) / 2 = j
      · rw [h2, put_eq, put_ne _ _ h1]; exact hB k k1 k2 h2
      · rw [put_ne _ _ h1, put_ne _ _ h2]; exact hA k k1 k2 h1 h2
  induction m with
  | zero =>
    intro j f hm hj hA hB hC
    exact stop j f hj hA hB (fun h => by omega)
  | succ m ih =>
    intro j f hm hj hA hB hC
    rw [heapUp]
    split
    · next h0 =>
      simp only
      split
      · next hlt =>
        have hle : cmp x (f ((j - 1) / 2)) ≠ .gt := by rw [hlt]; decide
        obtain ⟨r1, r2⟩ := ih ((j - 1) / 2) (put f j (f ((j - 1) / 2))) (by omega) (by omega) (fun k k1 k2 k3 k4 => by
            have k5 : k ≠ j := fun h => k4 (by rw [h])
            rw [put_ne _ _ k5]
            by_cases h : (k - 1) / 2 = j
            · rw [h, put_eq]; exact hC k k1 k2 h h0
            · rw [put_ne _ _ h]; exact hA k k1 k2 k5 h) (fun c c1 c2 c3 => by
            by_cases h : c = j
            · subst h; rw [put_eq]; exact hle
            · rw [put_ne _ _ h]
              refine le_trans' hle ?_
              rw [← c3]; exact hA c c1 c2 h (by omega)) (fun c c1 c2 c3 c4 => by
            rw [put_ne _ _ (by omega)]
            have hp : cmp (f (((j - 1) / 2 - 1) / 2)) (f ((j - 1) / 2)) ≠ .gt := hA _ c4 (by omega) (by omega) (by omega)
            by_cases h : c = j
            · subst h; rw [put_eq]; exact hp
            · rw [put_ne _ _ h]
              refine le_trans' hp ?_
              have := hA c c1 c2 h (by omega)
              rwa [c3] at this)
        exact ⟨r1, (put_swap f x (by omega) (Nat.zero_le _) (by omega) (Nat.zero_le _) hj).trans r2⟩
      · next hlt => exact stop j f hj hA hB (fun _ => ge_of_not_lt hlt)
    · next h0 => exact stop j f hj hA hB (fun h => absurd h h0)

theorem heapDown_ok (x : β) (n m : Nat) : ∀ (i : Nat) (f : Nat → β), n ≤ m + i → i < n →
    (∀ k, 0 < k → k < n → k ≠ i → (k - 1) / 2 ≠ i → cmp (f ((k - 1) / 2)) (f k) ≠ .gt) →
    (∀ c, 0 < c → c < n → (c - 1) / 2 = i → 0 < i → cmp (f ((i - 1) / 2)) (f c) ≠ .gt) →
    (0 < i → cmp (f ((i - 1) / 2)) x ≠ .gt) →
    HeapOK cmp (heapDown cmp x n m i f) n ∧ Rearranged (put f i x) (heapDown cmp x n m i f) 0 n := by
  have stop : ∀ (i : Nat) (f : Nat → β), i < n →
      (∀ k, 0 < k → k < n → k ≠ i → (k - 1) / 2 ≠ i → cmp (f ((k - 1) / 2)) (f k) ≠ .gt) →
      (∀ c, 0 < c → c < n → (c - 1) / 2 = i → cmp x (f c) ≠ .gt) → (0 < i → cmp (f ((i - 1) / 2)) x ≠ .gt) →
      HeapOK cmp (put f i x) n ∧ Rearranged (put f i x) (put f i x) 0 n := by
    intro j f hj hA hB hP
    refine ⟨fun k k1 k2 => ?_, .refl _ _ _⟩
    by_cases h1 : k = j
    · subst h1
      rw [put_eq, put_ne _ _ (by omega)]; exact hP k1
    · by_cases h2 : (k - 1) / 2 = j
      · rw [h2, put_eq, put_ne _ _ h1]; exact hB k k1 k2 h2
      · rw [put_ne _ _ h1, put_ne _ _ h2]; exact hA k k1 k2 h1 h2
  induction m with
  | zero => intro i f hm hi; omega
  | succ m ih =>
    intro i f hm hi hA hD hE
    rw [heapDown]
    simp only
    split
    · next hj => exact stop i f hi hA (fun c c1 c2 c3 => by omega) hE
    · next hj =>
      obtain ⟨j', hj', h1, h2⟩ : ∃ j', (if 2 * i + 1 + 1 < n ∧ cmp (f (2 * i + 1)) (f (2 * i + 1 + 1)) = .gt then 2 * i + 1 + 1 else 2 * i + 1) = j' ∧
          (j' < n ∧ 0 < j' ∧ (j' - 1) / 2 = i) ∧ ∀ c, 0 < c → c < n → (c - 1) / 2 = i → cmp (f j') (f c) ≠ .gt := by
        refine ⟨_, rfl, ?_⟩
        split
        · next hc =>
          refine ⟨by omega, fun c c1 c2 c3 => ?_⟩
          have : c = 2 * i + 1 ∨ c = 2 * i + 1 + 1 := by omega
          rcases this with h | h
          · rw [h]; exact le_of_gt hc.2
          · rw [h, ReflCmp.compare_self (cmp := cmp)]; decide
        · next hc =>
          refine ⟨by omega, fun c c1 c2 c3 => ?_⟩
          have : c = 2 * i + 1 ∨ c = 2 * i + 1 + 1 := by omega
          rcases this with h | h
          · rw [h, ReflCmp.compare_self (cmp := cmp)]; decide
          · rw [h]; exact fun hg => hc ⟨by omega, hg⟩
      rw [hj']
      split
      · next hle => exact stop i f hi hA (fun c c1 c2 c3 => le_trans' hle (h2 c c1 c2 c3)) hE
      · next hle =>
        rw [ne_eq, not_not] at hle
        obtain ⟨h1, h3, h4⟩ := h1
        obtain ⟨r1, r2⟩ := ih j' (put f i (f j')) (by omega) h1 (fun k k1 k2 k3 k4 => by
            by_cases h : k = i
            · subst h; rw [put_eq, put_ne _ _ (by omega)]; exact hD j' h3 h1 h4 k1
            · rw [put_ne _ _ h]
              by_cases h' : (k - 1) / 2 = i
              · rw [h', put_eq]; exact h2 k k1 k2 h'
              · rw [put_ne _ _ h']; exact hA k k1 k2 h h') (fun c c1 c2 c3 _ => by
            rw [h4, put_eq, put_ne _ _ (by omega), ← c3]
            exact hA c c1 c2 (by omega) (by omega)) (fun _ => by
            rw [h4, put_eq]; exact le_of_gt hle)
        exact ⟨r1, (put_swap f x (by omega) (Nat.zero_le _) h1 (Nat.zero_le _) hi).trans r2⟩

/-- The elements of a heap. -/
def items (h : (Nat → β) × Nat) : List β := (List.range h.2).map h.1

theorem heap_min {h : (Nat → β) × Nat} (hh : HeapOK cmp h.1 h.2) : ∀ y ∈ items h, cmp (h.1 0) y ≠ .gt := by
  have : ∀ k, k < h.2 → cmp (h.1 0) (h.1 k) ≠ .gt := by
    intro k
    induction k using Nat.strong_induction_on with
    | _ k ih =>
      intro hk
      by_cases h0 : k = 0
      · rw [h0, ReflCmp.compare_self (cmp := cmp)]; decide
      · exact le_trans' (ih ((k - 1) / 2) (by omega) (by omega)) (hh k (by omega) hk)
  intro y hy
  obtain ⟨k, hk, rfl⟩ := List.mem_map.1 hy
  exact this k (List.mem_range.1 hk)

theorem insert_ok {h : (Nat → β) × Nat} (hh : HeapOK cmp h.1 h.2) (x : β) :
    HeapOK cmp (heapInsert cmp h x).1 (heapInsert cmp h x).2 ∧ (items (heapInsert cmp h x)).Perm (x :: items h) := by
  obtain ⟨r1, r2⟩ := heapUp_ok (cmp := cmp) x (h.2 + 1) h.2 h.2 h.1 (Nat.le_refl _) (by omega) (fun k k1 k2 k3 k4 => hh k k1 (by omega)) (fun c c1 c2 c3 => by omega)
    (fun c c1 c2 c3 => by omega)
  refine ⟨r1, r2.perm.trans ?_⟩
  rw [List.range_succ, List.map_append, List.map_singleton, put_eq]
  refine (List.perm_append_comm).trans (List.Perm.of_eq ?_)
  rw [List.singleton_append]
  congr 1
  exact List.map_congr_left (fun k hk => put_ne _ _ (by have := List.mem_range.1 hk; omega))

theorem replace_ok {h : (Nat → β) × Nat} (hh : HeapOK cmp h.1 h.2) (h0 : 0 < h.2) (x : β) :
    HeapOK cmp (heapReplace cmp h x).1 (heapReplace cmp h x).2 ∧ ∃ l, items h = h.1 0 :: l ∧ (items (heapReplace cmp h x)).Perm (x :: l) := by
  obtain ⟨r1, r2⟩ := heapDown_ok (cmp := cmp) x h.2 h.2 0 h.1 (by omega) h0 (fun k k1 k2 k3 k4 => hh k k1 k2) (fun c c1 c2 c3 c4 => by omega) (fun c => by omega)
  obtain ⟨n, hn⟩ : ∃ n, h.2 = n + 1 := ⟨h.2 - 1, by omega⟩
  have e : ∀ f : Nat → β, (List.range h.2).map f = f 0 :: (List.range n).map (fun k => f (k + 1)) := by
    intro f
    rw [hn, List.range_succ_eq_map, List.map_cons, List.map_map]; rfl
  refine ⟨r1, (List.range n).map (fun k => h.1 (k + 1)), e _, r2.perm.trans (List.Perm.of_eq ?_)⟩
  rw [e, put_eq]
  congr 1

theorem delete_ok {h : (Nat → β) × Nat} (hh : HeapOK cmp h.1 h.2) (h0 : 0 < h.2) :
    HeapOK cmp (heapDelete cmp h).1 (heapDelete cmp h).2 ∧ (items h).Perm (h.1 0 :: items (heapDelete cmp h)) := by
  unfold heapDelete
  split
  · next h1 =>
    refine ⟨fun k k1 k2 => by simp only at k2; omega, ?_⟩
    have : h.2 = 1 := by omega
    rw [items, items, this]; exact .refl _
  · next h1 =>
    obtain ⟨r1, l, r2, r3⟩ := replace_ok (h := (h.1, h.2 - 1)) (fun k k1 k2 => hh k k1 (by simp only at k2; omega)) (by simp only; omega) (h.1 (h.2 - 1))
    refine ⟨r1, ?_⟩
    have : items h = items (h.1, h.2 - 1) ++ [h.1 (h.2 - 1)] := by
      unfold items
      conv => lhs; rw [show h.2 = (h.2 - 1) + 1 by omega, List.range_succ, List.map_append, List.map_singleton]
    rw [this, r2]
    refine (List.perm_append_comm).trans ?_
    rw [List.singleton_append]
    exact (List.Perm.swap _ _ _).trans (r3.symm.cons _)
end

/-! ### One merge -/

section
variable {α : Type} {cmp : α → α → Ordering} [TransCmp cmp]

/-- In order. -/
def Ordered (cmp : α → α → Ordering) (l : List α) : Prop := l.Pairwise (fun x y => cmp x y ≠ .gt)

instance : TransCmp (cmpFst cmp) where
  eq_swap := OrientedCmp.eq_swap (cmp := cmp)
  isLE_trans := TransCmp.isLE_trans (cmp := cmp)

/-- What is on the runs from which is read. -/
def onRuns (M : Nat) (rest : Nat → List α) : Multiset α := ∑ t ∈ Finset.range M, (rest t : Multiset α)

omit [TransCmp cmp] in
theorem onRuns_put {M t : Nat} (ht : t < M) (rest : Nat → List α) (l : List α) : (l : Multiset α) + onRuns M rest = (rest t : Multiset α) + onRuns M (put rest t l) := by
  have he : ∑ s ∈ (Finset.range M).erase t, ((put rest t l s : List α) : Multiset α) = ∑ s ∈ (Finset.range M).erase t, (rest s : Multiset α) :=
    Finset.sum_congr rfl (fun s hs => by rw [put_ne _ _ (Finset.ne_of_mem_erase hs)])
  unfold onRuns
  rw [← Finset.add_sum_erase _ _ (Finset.mem_range.2 ht), ← Finset.add_sum_erase (Finset.range M) (fun s => ((put rest t l s : List α) : Multiset α)) (Finset.mem_range.2 ht), put_eq, he]
  rw [← add_assoc, ← add_assoc, add_comm (l : Multiset α)]

omit [TransCmp cmp] in
theorem onRuns_take {M t : Nat} (ht : t < M) {rest : Nat → List α} {y : α} {ys : List α} (h : rest t = y :: ys) : onRuns M rest = y ::ₘ onRuns M (put rest t ys) := by
  have := onRuns_put ht rest ys
  rw [h, ← Multiset.cons_coe, Multiset.cons_add, add_comm, add_comm (ys : Multiset α)] at this
  rw [← Multiset.cons_add] at this
  exact add_right_cancel this

/-- State of a merge: `total` are the tuples that have not come out; the heap has the first of each run up to tape `k`. -/
structure Mid (cmp : α → α → Ordering) (M k : Nat) (total : Multiset α) (h : (Nat → α × Nat) × Nat) (rest : Nat → List α) : Prop where
  heap : HeapOK (cmpFst cmp) h.1 h.2
  bound : ∀ x ∈ items h, ∀ y ∈ rest x.2, cmp x.1 y ≠ .gt
  sorted : ∀ t, Ordered cmp (rest t)
  src : ∀ x ∈ items h, x.2 < M
  cover : ∀ t, t < k → rest t ≠ [] → ∃ x ∈ items h, x.2 = t
  total : (((items h).map (·.1) : List α) : Multiset α) + onRuns M rest = total

theorem fill_ok {M : Nat} {total : Multiset α} (m : Nat) : ∀ (k : Nat) (rest : Nat → List α) (h : (Nat → α × Nat) × Nat), m + k = M → Mid cmp M k total h rest →
    (∀ x ∈ items h, x.2 < k) → Mid cmp M M total (fill cmp m k rest h).1 (fill cmp m k rest h).2 := by
  induction m with
  | zero => intro k rest h hk hm _; rw [fill]; rw [Nat.zero_add] at hk; subst hk; exact hm
  | succ m ih =>
    intro k rest h hk hm hs
    have ⟨m1, m2, m3, m4, m5, m6⟩ := hm
    rw [fill]
    split
    · next he =>
      refine ih (k + 1) rest h (by omega) ⟨m1, m2, m3, m4, fun t ht hne => ?_, m6⟩ (fun x hx => by have := hs x hx; omega)
      by_cases h' : t = k
      · rw [h'] at hne; exact absurd he hne
      · exact m5 t (by omega) hne
    · next y ys he =>
      obtain ⟨r1, r2⟩ := insert_ok m1 (y, k)
      have hP := m3 k
      rw [he] at hP
      have hP := List.pairwise_cons.1 hP
      refine ih (k + 1) _ _ (by omega) ⟨r1, fun x hx z hz => ?_, fun t => ?_, fun x hx => ?_, fun t ht hne => ?_, ?_⟩ (fun x hx => ?_)
      · rcases List.mem_cons.1 (r2.mem_iff.1 hx) with rfl | hx
        · rw [put_eq] at hz; exact hP.1 z hz
        · rw [put_ne _ _ (by have := hs x hx; omega)] at hz; exact m2 x hx z hz
      · by_cases h' : t = k
        · subst h'; rw [put_eq]; exact hP.2
        · rw [put_ne _ _ h']; exact m3 t
      · rcases List.mem_cons.1 (r2.mem_iff.1 hx) with rfl | hx
        · show k < M; omega
        · exact m4 x hx
      · by_cases h' : t = k
        · exact ⟨(y, k), r2.mem_iff.2 (List.mem_cons_self ..), h'.symm⟩
        · rw [put_ne _ _ h'] at hne
          obtain ⟨x, hx, hxt⟩ := m5 t (by omega) hne
          exact ⟨x, r2.mem_iff.2 (List.mem_cons_of_mem _ hx), hxt⟩
      · rw [← m6, onRuns_take (by omega : k < M) he, Multiset.coe_eq_coe.2 (r2.map (·.1)), List.map_cons, ← Multiset.cons_coe, Multiset.cons_add, Multiset.add_cons]
      · rcases List.mem_cons.1 (r2.mem_iff.1 hx) with rfl | hx
        · show k < k + 1; omega
        · have := hs x hx; omega

theorem drain_ok {M : Nat} (m : Nat) : ∀ (total : Multiset α) (h : (Nat → α × Nat) × Nat) (rest : Nat → List α), Mid cmp M M total h rest → total.card ≤ m →
    Ordered cmp (drain cmp m h rest) ∧ (drain cmp m h rest : Multiset α) = total := by
  induction m with
  | zero =>
    intro total h rest hm hc
    exact ⟨.nil, (Multiset.card_eq_zero.1 (Nat.le_zero.1 hc)).symm⟩
  | succ m ih =>
    intro total h rest hm hc
    have ⟨m1, m2, m3, m4, m5, m6⟩ := hm
    rw [drain]
    split
    · next h0 =>
      simp only
      have htop : h.1 0 ∈ items h := List.mem_map.2 ⟨0, List.mem_range.2 h0, rfl⟩
      have hmin : ∀ y ∈ total, cmp (h.1 0).1 y ≠ .gt := by
        intro y hy
        rw [← m6, Multiset.mem_add] at hy
        rcases hy with hy | hy
        · obtain ⟨x, hx, rfl⟩ := List.mem_map.1 (Multiset.mem_coe.1 hy)
          exact heap_min m1 x hx
        · obtain ⟨t, ht, hyt⟩ := Multiset.mem_sum.1 hy
          have hyt := Multiset.mem_coe.1 hyt
          obtain ⟨x, hx, rfl⟩ := m5 t (Finset.mem_range.1 ht) (fun he => by rw [he] at hyt; cases hyt)
          exact le_trans' (heap_min m1 x hx) (m2 x hx y hyt)
      have fin : ∀ (total' : Multiset α) (h' : (Nat → α × Nat) × Nat) (rest' : Nat → List α), total = (h.1 0).1 ::ₘ total' → Mid cmp M M total' h' rest' →
          Ordered cmp ((h.1 0).1 :: drain cmp m h' rest') ∧ (((h.1 0).1 :: drain cmp m h' rest' : List α) : Multiset α) = total := by
        intro total' h' rest' ht hm'
        obtain ⟨d1, d2⟩ := ih total' h' rest' hm' (by rw [ht, Multiset.card_cons] at hc; omega)
        refine ⟨List.pairwise_cons.2 ⟨fun y hy => hmin y ?_, d1⟩, by rw [← Multiset.cons_coe, d2, ht]⟩
        rw [ht, ← d2]
        exact Multiset.mem_cons_of_mem (Multiset.mem_coe.2 hy)
      have ht := m4 _ htop
      split
      · next y ys he =>
        obtain ⟨r1, l, r2, r3⟩ := replace_ok m1 h0 (y, (h.1 0).2)
        have hP := m3 (h.1 0).2
        rw [he] at hP
        have hP := List.pairwise_cons.1 hP
        have hl : ∀ x ∈ l, x ∈ items h := fun x hx => by rw [r2]; exact List.mem_cons_of_mem _ hx
        refine fin ((((y :: l.map (·.1) : List α)) : Multiset α) + onRuns M (put rest (h.1 0).2 ys)) _ _ ?_ ⟨r1, fun x hx z hz => ?_, fun t => ?_, fun x hx => ?_, fun t t1 hne => ?_, ?_⟩
        · rw [← m6, onRuns_take ht he, r2, List.map_cons, ← Multiset.cons_coe, ← Multiset.cons_coe, Multiset.cons_add, Multiset.cons_add, Multiset.add_cons]
        · rcases List.mem_cons.1 (r3.mem_iff.1 hx) with rfl | hx
          · rw [put_eq] at hz; exact hP.1 z hz
          · by_cases h' : x.2 = (h.1 0).2
            · rw [h', put_eq] at hz
              refine m2 x (hl x hx) z ?_
              rw [h', he]; exact List.mem_cons_of_mem _ hz
            · rw [put_ne _ _ h'] at hz; exact m2 x (hl x hx) z hz
        · by_cases h' : t = (h.1 0).2
          · subst h'; rw [put_eq]; exact hP.2
          · rw [put_ne _ _ h']; exact m3 t
        · rcases List.mem_cons.1 (r3.mem_iff.1 hx) with rfl | hx
          · exact ht
          · exact m4 x (hl x hx)
        · by_cases h' : t = (h.1 0).2
          · exact ⟨_, r3.mem_iff.2 (List.mem_cons_self ..), h'.symm⟩
          · rw [put_ne _ _ h'] at hne
            obtain ⟨x, hx, hxt⟩ := m5 t t1 hne
            rw [r2] at hx
            rcases List.mem_cons.1 hx with rfl | hx
            · exact absurd hxt.symm h'
            · exact ⟨x, r3.mem_iff.2 (List.mem_cons_of_mem _ hx), hxt⟩
        · rw [Multiset.coe_eq_coe.2 (r3.map (·.1)), List.map_cons]
      · next he =>
        obtain ⟨r1, r2⟩ := delete_ok m1 h0
        have hl : ∀ x ∈ items (heapDelete (cmpFst cmp) h), x ∈ items h := fun x hx => r2.mem_iff.2 (List.mem_cons_of_mem _ hx)
        refine fin _ _ _ ?_ ⟨r1, fun x hx => m2 x (hl x hx), m3, fun x hx => m4 x (hl x hx), fun t t1 hne => ?_, rfl⟩
        · rw [← m6, Multiset.coe_eq_coe.2 (r2.map (·.1)), List.map_cons, ← Multiset.cons_coe, Multiset.cons_add]
        · obtain ⟨x, hx, hxt⟩ := m5 t t1 hne
          rcases List.mem_cons.1 (r2.mem_iff.1 hx) with rfl | hx
          · rw [← hxt] at hne; exact absurd he hne
          · exact ⟨x, hx, hxt⟩
    · next h0 =>
      have hi : items h = [] := by rw [items, show h.2 = 0 by omega]; rfl
      have hr : onRuns M rest = 0 := by
        refine Finset.sum_eq_zero (fun t ht => ?_)
        by_contra hne
        obtain ⟨x, hx, -⟩ := m5 t (Finset.mem_range.1 ht) (fun he => hne (by rw [he]; rfl))
        rw [hi] at hx; cases hx
      refine ⟨.nil, ?_⟩
      rw [← m6, hi, hr]; rfl

/-- **The merge.** Runs in order become one run in order. -/
theorem mergeAll_ok [Inhabited α] (M : Nat) (rest : Nat → List α) (h : ∀ t, Ordered cmp (rest t)) :
    Ordered cmp (mergeAll cmp M rest) ∧ (mergeAll cmp M rest : Multiset α) = onRuns M rest := by
  unfold mergeAll
  simp only
  refine drain_ok (M := M) _ _ _ _ (fill_ok M 0 rest _ rfl ⟨fun k _ k2 => (by simp only at k2; omega), fun x hx => (by cases hx), h, fun x hx => (by cases hx), fun t ht => (by omega), by
    rw [show items ((fun _ => ((default : α), 0), 0) : (Nat → α × Nat) × Nat) = [] from rfl]
    exact zero_add _⟩ (fun x hx => by cases hx)) ?_
  unfold onRuns
  rw [Multiset.card_sum]
  simp only [Multiset.coe_card]
  have : ∀ f : Nat → Nat, ∑ t ∈ Finset.range M, f t = ((List.range M).map f).sum := by
    intro f
    induction M with
    | zero => rfl
    | succ n ih => rw [Finset.sum_range_succ, List.range_succ, List.map_append, List.sum_append, ih]; simp
  exact Nat.le_of_eq (this _)

/-! ### Algorithm D -/

/-- The number of runs, real and dummy, on tape `j` at level `n + 1`: the generalized Fibonacci numbers. -/
def fibs (T : Nat) : Nat → Nat → Int
  | 0, j => if j < T then 1 else 0
  | n + 1, j => if j < T then fibs T n 0 + fibs T n (j + 1) else 0

theorem fibs_out (T n : Nat) {j : Nat} (h : T ≤ j) : fibs T n j = 0 := by
  cases n <;> rw [fibs, if_neg (by omega)]

theorem fibs_mono (T n : Nat) : ∀ j, fibs T n (j + 1) ≤ fibs T n j := by
  suffices h : (∀ j, fibs T n (j + 1) ≤ fibs T n j) ∧ 0 ≤ fibs T n 0 from h.1
  induction n with
  | zero => exact ⟨fun j => by simp only [fibs]; split <;> split <;> omega, by simp only [fibs]; split <;> omega⟩
  | succ n ih =>
    obtain ⟨ih, h0⟩ := ih
    have hpos : ∀ j, 0 ≤ fibs T n j := by
      intro j
      by_cases hj : T ≤ j
      · rw [fibs_out T n hj]
      · obtain ⟨d, hd⟩ : ∃ d, j + d = T := ⟨T - j, by omega⟩
        clear hj
        induction d generalizing j with
        | zero => rw [fibs_out T n (by omega)]
        | succ d ih2 => exact Int.le_trans (ih2 (j + 1) (by omega)) (ih j)
    have := hpos
    refine ⟨fun j => ?_, ?_⟩
    · simp only [fibs]
      have h1 := ih (j + 1)
      have h2 := hpos (j + 1)
      split <;> split <;> omega
    · simp only [fibs]
      have h2 := hpos (0 + 1)
      split <;> omega

theorem fibs_le (T n : Nat) {i j : Nat} (h : i ≤ j) : fibs T n j ≤ fibs T n i := by
  induction h with
  | refl => exact Int.le_refl _
  | step _ ih => exact Int.le_trans (fibs_mono T n _) ih

theorem fibs_nonneg (T n j : Nat) : 0 ≤ fibs T n j := by
  by_cases h : T ≤ j
  · rw [fibs_out T n h]
  · rw [← fibs_out T n (Nat.le_refl T)]; exact fibs_le T n (by omega)

theorem fibs_pos {T : Nat} (hT : 2 ≤ T) (n : Nat) : 1 ≤ fibs T n 1 ∧ 1 ≤ fibs T n 0 := by
  have : 1 ≤ fibs T n 1 := by
    induction n with
    | zero => simp only [fibs]; rw [if_pos (by omega)]
    | succ n ih =>
      have h0 := fibs_mono T n 0
      have h2 := fibs_nonneg T n (1 + 1)
      have h3 : fibs T n (0 + 1) = fibs T n 1 := rfl
      simp only [fibs]
      rw [if_pos (by omega)]; omega
  exact ⟨this, Int.le_trans this (fibs_mono T n 0)⟩

/-- The differences get smaller. -/
theorem fibs_concave (T n : Nat) : ∀ j, j + 2 ≤ T → fibs T n (j + 2) - fibs T n (j + 1) ≤ fibs T n (j + 1) - fibs T n j := by
  induction n with
  | zero =>
    intro j hj
    simp only [fibs]
    split <;> split <;> split <;> omega
  | succ n ih =>
    intro j hj
    simp only [fibs]
    rw [if_pos (by omega : j < T), if_pos (by omega : j + 1 < T)]
    by_cases h : j + 2 < T
    · rw [if_pos h]
      have := ih (j + 1) (by omega)
      rw [show j + 1 + 2 = j + 2 + 1 from rfl] at this
      omega
    · rw [if_neg h]
      have h1 := fibs_le T n (Nat.zero_le (j + 1))
      have h2 : fibs T n (j + 1 + 1) = 0 := fibs_out T n (by omega)
      omega

/-- All tuples on the tapes. -/
def onTapes (T : Nat) (s : St α) : Multiset α := onRuns (T + 1) (fun t => (s.tape t).flatten)

/-- The tapes and the counts fit together. -/
structure Tapes (cmp : α → α → Ordering) (T : Nat) (total : Multiset α) (s : St α) : Prop where
  le : ∀ j, j ≤ T → s.tapenum j ≤ T
  inj : ∀ i j, i ≤ T → j ≤ T → s.tapenum i = s.tapenum j → i = j
  sur : ∀ t, t ≤ T → ∃ j, j ≤ T ∧ s.tapenum j = t
  len : ∀ j, j ≤ T → ((s.tape (s.tapenum j)).length : Int) = s.runs j
  dum : ∀ j, j ≤ T → 0 ≤ s.dummy j
  sorted : ∀ t, ∀ r ∈ s.tape t, Ordered cmp r
  total : onTapes T s = total

/-- Before a merge of level `n + 1`, when `k` merges of the level are done. -/
structure Merging (cmp : α → α → Ordering) (T n : Nat) (k : Int) (total : Multiset α) (s : St α) : Prop extends Tapes cmp T total s where
  level : s.level = n + 1
  cnt : ∀ j, j < T → s.runs j + s.dummy j = fibs T n j - k
  out : s.runs T + s.dummy T = k
  real : ∃ j, j ≤ T ∧ 1 ≤ s.runs j

omit [TransCmp cmp] in
theorem active_iff {T : Nat} {total : Multiset α} {s : St α} (h : Tapes cmp T total s) {j : Nat} (hj : j ≤ T) :
    active T s (s.tapenum j) = true ↔ j < T ∧ s.dummy j = 0 := by
  unfold active
  rw [List.any_eq_true]
  constructor
  · rintro ⟨i, hi, hp⟩
    have hi := List.mem_range.1 hi
    rw [Bool.and_eq_true, decide_eq_true_eq, Bool.not_eq_true', decide_eq_false_iff_not] at hp
    have := h.inj i j (by omega) hj hp.1
    subst this
    have := h.dum i (by omega)
    exact ⟨hi, by omega⟩
  · rintro ⟨h1, h2⟩
    exact ⟨j, List.mem_range.2 h1, by simp [h2]⟩

omit [TransCmp cmp] in
theorem cur_sorted {T : Nat} {total : Multiset α} {s : St α} (h : Tapes cmp T total s) (t : Nat) : Ordered cmp (cur T s t) := by
  unfold cur
  split
  · cases ht : s.tape t with
    | nil => exact .nil
    | cons r l => exact h.sorted t r (by rw [ht]; exact List.mem_cons_self ..)
  · exact .nil

/-- The tapes after a merge has read. -/
def readTape (T : Nat) (s : St α) (t : Nat) : List (List α) := if active T s t then (s.tape t).tail else s.tape t

omit [TransCmp cmp] in
theorem onTapes_read (T : Nat) (s : St α) : onTapes T s = onRuns (T + 1) (cur T s) + onRuns (T + 1) (fun t => (readTape T s t).flatten) := by
  unfold onTapes onRuns
  rw [← Finset.sum_add_distrib]
  refine Finset.sum_congr rfl (fun t _ => ?_)
  show ((s.tape t).flatten : Multiset α) = (cur T s t : Multiset α) + ((readTape T s t).flatten : Multiset α)
  unfold cur readTape
  split
  · cases s.tape t with
    | nil => rfl
    | cons r l => rw [List.flatten_cons, ← Multiset.coe_add]; rfl
  · exact (zero_add _).symm

omit [TransCmp cmp] in
theorem beginMerge_ok {T : Nat} {total : Multiset α} {s : St α} (h : Tapes cmp T total s) (h1 : ∀ j, j < T → 1 ≤ s.runs j + s.dummy j) (h2 : ∃ j, j < T ∧ s.dummy j = 0) :
    beginMerge T s = some { s with
      dummy := fun j => if j < T ∧ s.dummy j > 0 then s.dummy j - 1 else s.dummy j
      runs := fun j => if j < T ∧ ¬ s.dummy j > 0 then s.runs j - 1 else s.runs j
      tape := readTape T s } := by
  unfold beginMerge
  rw [if_neg, if_neg]
  · rfl
  · intro hc
    obtain ⟨j, j1, j2⟩ := h2
    have := hc j (List.mem_range.2 j1)
    omega
  · rintro ⟨j, hj, hd, hr⟩
    have := h1 j (List.mem_range.1 hj)
    omega

theorem mergeOneRun_ok [Inhabited α] {T n : Nat} {k : Int} {total : Multiset α} {s : St α} (h : Merging cmp T n k total s) (hk : k < fibs T n (T - 1)) (h2 : ∃ j, j < T ∧ s.dummy j = 0) :
    ∃ s', mergeOneRun cmp T s = some s' ∧ Merging cmp T n (k + 1) total s' := by
  have ht := h.toTapes
  have hcnt : ∀ j, j < T → 1 ≤ s.runs j + s.dummy j := fun j hj => by
    have := h.cnt j hj
    have := fibs_le T n (by omega : j ≤ T - 1)
    omega
  have hb := beginMerge_ok ht hcnt h2
  unfold mergeOneRun
  rw [hb]
  obtain ⟨m1, m2⟩ := mergeAll_ok (cmp := cmp) (T + 1) (cur T s) (cur_sorted ht)
  generalize mergeAll cmp (T + 1) (cur T s) = r at m1 m2
  have hna : active T s (s.tapenum T) = false := by
    rw [Bool.eq_false_iff, ne_eq, active_iff ht (Nat.le_refl T)]; omega
  have hread : readTape T s (s.tapenum T) = s.tape (s.tapenum T) := by unfold readTape; rw [hna]; rfl
  refine ⟨_, rfl, ⟨h.le, h.inj, h.sur, fun j hj => ?_, fun j hj => ?_, fun t q hq => ?_, ?_⟩, h.level, fun j hj => ?_, ?_, ⟨T, Nat.le_refl _, ?_⟩⟩
  · simp only
    by_cases hjT : j = T
    · subst hjT
      rw [put_eq, put_eq, List.length_append, hread, if_neg (by omega)]
      have := h.len j hj
      simp only [List.length_singleton]; omega
    · rw [put_ne _ _ hjT, put_ne _ _ (fun he => hjT (h.inj _ _ hj (Nat.le_refl _) he))]
      unfold readTape
      have hl := h.len j hj
      have := hcnt j (by omega)
      have hd := h.dum j hj
      split
      · next ha =>
        have ha := (active_iff ht hj).1 ha
        rw [if_pos ⟨ha.1, by omega⟩, List.length_tail]; omega
      · next ha =>
        have : s.dummy j ≠ 0 := fun h0 => ha ((active_iff ht hj).2 ⟨by omega, h0⟩)
        rw [if_neg (by omega)]; exact hl
  · simp only
    have := h.dum j hj
    split <;> omega
  · simp only at hq
    have hr : ∀ q ∈ readTape T s t, Ordered cmp q := by
      intro q hq
      unfold readTape at hq
      split at hq
      · exact h.sorted t q (List.mem_of_mem_tail hq)
      · exact h.sorted t q hq
    by_cases htt : t = s.tapenum T
    · subst htt
      rw [put_eq, List.mem_append, List.mem_singleton] at hq
      rcases hq with hq | rfl
      · exact hr q hq
      · exact m1
    · rw [put_ne _ _ htt] at hq; exact hr q hq
  · rw [← h.total, onTapes_read T s, ← m2]
    have := onRuns_put (M := T + 1) (t := s.tapenum T) (by have := h.le T (Nat.le_refl _); omega) (fun t => (readTape T s t).flatten)
      ((readTape T s (s.tapenum T)).flatten ++ r)
    rw [← Multiset.coe_add, add_assoc] at this
    have e : (fun t => (put (readTape T s) (s.tapenum T) (readTape T s (s.tapenum T) ++ [r]) t).flatten) =
        put (fun t => (readTape T s t).flatten) (s.tapenum T) ((readTape T s (s.tapenum T)).flatten ++ r) := by
      funext t
      unfold put
      split
      · simp
      · rfl
    unfold onTapes
    simp only
    rw [e]
    exact (add_left_cancel this).symm
  · simp only
    have := h.cnt j hj
    rw [put_ne _ _ (by omega)]
    split <;> split <;> omega
  · simp only
    have := h.out
    rw [put_eq, if_neg (by omega), if_neg (by omega)]; omega
  · simp only
    have := h.len T (Nat.le_refl _)
    rw [put_eq, if_neg (by omega)]; omega

theorem passD5_ok [Inhabited α] {T n : Nat} (hT : 2 ≤ T) {total : Multiset α} (m : Nat) : ∀ (s : St α) (k : Int), Merging cmp T n k total s → fibs T n (T - 1) - k = m →
    ∃ s', passD5 cmp T m s = some s' ∧ Merging cmp T n (fibs T n (T - 1)) total s' := by
  have hcond : ∀ (s : St α) (k : Int), Merging cmp T n k total s → ((s.runs (T - 1) ≠ 0 ∨ s.dummy (T - 1) ≠ 0) ↔ fibs T n (T - 1) - k ≠ 0) := by
    intro s k h
    have h1 := h.cnt (T - 1) (by omega)
    have h2 := h.len (T - 1) (by omega)
    have h3 := h.dum (T - 1) (by omega)
    omega
  induction m with
  | zero =>
    intro s k h hm
    rw [passD5, if_neg (by rw [hcond s k h]; omega)]
    refine ⟨s, rfl, ?_⟩
    rw [show fibs T n (T - 1) = k by omega]; exact h
  | succ m ih =>
    intro s k h hm
    rw [passD5, if_pos (by rw [hcond s k h]; omega)]
    split
    · next had =>
      have had : ∀ j, j < T → 1 ≤ s.dummy j := fun j hj => by
        have := had j (List.mem_range.2 hj)
        have := h.dum j (by omega)
        omega
      refine ih _ (k + 1) ⟨⟨h.le, h.inj, h.sur, h.len, fun j hj => ?_, h.sorted, h.total⟩, h.level, fun j hj => ?_, ?_, h.real⟩ (by omega)
      · simp only
        have := h.dum j hj
        split
        · omega
        · rw [if_pos (by omega)]
          have := had j (by omega); omega
      · simp only
        have := h.cnt j hj
        rw [if_neg (by omega), if_pos hj]; omega
      · simp only
        have := h.out
        rw [if_pos trivial]; omega
    · next had =>
      rw [not_forall] at had
      obtain ⟨j, hj⟩ := had
      rw [Classical.not_imp, not_not] at hj
      obtain ⟨s', e1, e2⟩ := mergeOneRun_ok h (by omega) ⟨j, List.mem_range.1 hj.1, hj.2⟩
      rw [e1]
      exact ih s' (k + 1) e2 (by omega)

omit [TransCmp cmp] in
theorem rotate_ok [Inhabited α] {T n : Nat} (hT : 2 ≤ T) {total : Multiset α} {s : St α} (h : Merging cmp T (n + 1) (fibs T (n + 1) (T - 1)) total s) :
    Merging cmp T n 0 total (rotate T s) := by
  have hl := h.len (T - 1) (by omega)
  have h0 := h.cnt (T - 1) (by omega)
  have hd := h.dum (T - 1) (by omega)
  have hr0 : s.runs (T - 1) = 0 := by omega
  have hd0 : s.dummy (T - 1) = 0 := by omega
  have htape : put s.tape (s.tapenum (T - 1)) [] = s.tape := by
    funext t
    unfold put
    split
    · next ht => rw [ht]; exact (List.eq_nil_of_length_eq_zero (by omega)).symm
    · rfl
  have hruns : put s.runs (T - 1) 0 = s.runs := by
    funext t
    unfold put
    split
    · next ht => rw [ht, hr0]
    · rfl
  have hlast : fibs T (n + 1) (T - 1) = fibs T n 0 := by
    have : fibs T n (T - 1 + 1) = 0 := fibs_out T n (by omega)
    rw [fibs, if_pos (by omega)]; omega
  unfold rotate
  simp only [htape, hruns]
  refine ⟨⟨fun j hj => ?_, fun i j hi hj he => ?_, fun t ht => ?_, fun j hj => ?_, fun j hj => ?_, h.sorted, h.total⟩, by simp only [h.level]; omega, fun j hj => ?_, ?_, ?_⟩
  · simp only
    split
    · exact h.le T (Nat.le_refl _)
    · exact h.le _ (by omega)
  · simp only at he
    rw [if_pos hi, if_pos hj] at he
    split at he
    · split at he
      · omega
      · have := h.inj _ _ (Nat.le_refl _) (by omega) he; omega
    · split at he
      · have := h.inj _ _ (by omega) (Nat.le_refl _) he; omega
      · have := h.inj _ _ (by omega) (by omega) he; omega
  · obtain ⟨j, j1, j2⟩ := h.sur t ht
    by_cases hj : j = T
    · exact ⟨0, by omega, by simp only; rw [if_pos trivial, ← hj]; exact j2⟩
    · exact ⟨j + 1, by omega, by simp only; rw [if_neg (by omega), if_pos (by omega)]; exact j2⟩
  · simp only
    split
    · exact h.len T (Nat.le_refl _)
    · exact h.len _ (by omega)
  · simp only
    split
    · exact h.dum T (Nat.le_refl _)
    · exact h.dum _ (by omega)
  · simp only
    by_cases hj0 : j = 0
    · rw [if_pos hj0, if_pos hj0, h.out, hlast, hj0]; omega
    · rw [if_neg hj0, if_neg hj0, if_pos (by omega), if_pos (by omega), h.cnt _ (by omega), hlast, fibs, if_pos (by omega), show j - 1 + 1 = j by omega]; omega
  · simp only [show ¬ T = 0 by omega, if_false, Nat.le_refl, if_true]
    omega
  · obtain ⟨j, j1, j2⟩ := h.real
    by_cases hj : j = T
    · refine ⟨0, by omega, ?_⟩
      simp only
      rw [if_pos trivial, ← hj]; exact j2
    · refine ⟨j + 1, by omega, ?_⟩
      simp only
      rw [if_neg (by omega), if_pos (by omega)]; exact j2

omit [TransCmp cmp] in
/-- After the last merge one tape has one run, and that is all. -/
theorem last_ok {T : Nat} (hT : 2 ≤ T) {total : Multiset α} {s : St α} (h : Merging cmp T 0 (fibs T 0 (T - 1)) total s) :
    Ordered cmp ((s.tape (s.tapenum T)).headD []) ∧ (((s.tape (s.tapenum T)).headD [] : List α) : Multiset α) = total := by
  have hf : ∀ j, j < T → fibs T 0 j = 1 := fun j hj => by rw [fibs, if_pos hj]
  have hout := h.out
  rw [hf _ (by omega)] at hout
  have h0 : ∀ j, j < T → s.tape (s.tapenum j) = [] := fun j hj => by
    have h1 := h.cnt j hj
    rw [hf _ hj, hf _ (by omega)] at h1
    have h2 := h.len j (by omega)
    have h3 := h.dum j (by omega)
    exact List.eq_nil_of_length_eq_zero (by omega)
  have h1 : (s.tape (s.tapenum T)).length = 1 := by
    obtain ⟨j, j1, j2⟩ := h.real
    have hlj := h.len j j1
    have : j = T := by
      by_contra hne
      rw [h0 j (by omega)] at hlj
      simp only [List.length_nil] at hlj; omega
    subst this
    have := h.dum j j1
    omega
  obtain ⟨r, hr⟩ := List.length_eq_one_iff.1 h1
  rw [hr, List.headD_cons]
  refine ⟨h.sorted _ r (by rw [hr]; exact List.mem_singleton_self r), ?_⟩
  rw [← h.total]
  unfold onTapes onRuns
  rw [Finset.sum_eq_single (s.tapenum T)]
  · show (r : Multiset α) = ((s.tape (s.tapenum T)).flatten : Multiset α)
    rw [hr]; simp
  · intro t ht hne
    obtain ⟨j, j1, rfl⟩ := h.sur t (by have := Finset.mem_range.1 ht; omega)
    show ((s.tape (s.tapenum j)).flatten : Multiset α) = 0
    rw [h0 j (by
      by_contra hj
      exact hne (by rw [show j = T by omega]))]
    rfl
  · intro hn
    exact absurd (Finset.mem_range.2 (by have := h.le T (Nat.le_refl _); omega)) hn

theorem mergeRuns_ok [Inhabited α] {T : Nat} (hT : 2 ≤ T) (ra : Bool) {total : Multiset α} (n : Nat) : ∀ s : St α, Merging cmp T n 0 total s →
    ∃ out, mergeRuns cmp ra T (n + 1) s = some out ∧ Ordered cmp out ∧ (out : Multiset α) = total := by
  have step : ∀ n (s : St α), Merging cmp T n 0 total s → ∃ s', passD5 cmp T (s.runs (T - 1) + s.dummy (T - 1)).toNat s = some s' ∧
      Merging cmp T n (fibs T n (T - 1)) total s' := by
    intro n s h
    have h1 := h.cnt (T - 1) (by omega)
    have h2 := fibs_nonneg T n (T - 1)
    exact passD5_ok hT _ s 0 h (by omega)
  -- the last merge, when it is done while the tuples are fetched
  have fin : ∀ n (s : St α), Merging cmp T n 0 total s → (∀ j ∈ List.range T, s.runs j + s.dummy j = 1) →
      (match beginMerge T s with
        | none => none
        | some _ => some (mergeAll cmp (T + 1) (cur T s))) = some (mergeAll cmp (T + 1) (cur T s)) ∧
      Ordered cmp (mergeAll cmp (T + 1) (cur T s)) ∧ (mergeAll cmp (T + 1) (cur T s) : Multiset α) = total := by
    intro n s h hone
    have hone : ∀ j, j < T → s.runs j + s.dummy j = 1 := fun j hj => hone j (List.mem_range.2 hj)
    have hT0 : s.runs T = 0 := by
      have := h.out
      have := h.len T (Nat.le_refl _)
      have := h.dum T (Nat.le_refl _)
      omega
    obtain ⟨j, j1, j2⟩ := h.real
    have hjT : j < T := by
      by_contra hc
      rw [show j = T by omega] at j2; omega
    have hb := beginMerge_ok h.toTapes (fun i hi => by rw [hone i hi]) ⟨j, hjT, by have := hone j hjT; have := h.dum j j1; omega⟩
    rw [hb]
    obtain ⟨m1, m2⟩ := mergeAll_ok (cmp := cmp) (T + 1) (cur T s) (cur_sorted h.toTapes)
    refine ⟨rfl, m1, ?_⟩
    rw [m2, ← h.total, onTapes_read]
    have : onRuns (T + 1) (fun t => (readTape T s t).flatten) = 0 := by
      refine Finset.sum_eq_zero (fun t ht => ?_)
      obtain ⟨i, i1, rfl⟩ := h.sur t (by have := Finset.mem_range.1 ht; omega)
      have hl := h.len i i1
      have hd := h.dum i i1
      have : readTape T s (s.tapenum i) = [] := by
        unfold readTape
        split
        · next ha =>
          have ha := (active_iff h.toTapes i1).1 ha
          have := hone i ha.1
          exact List.eq_nil_of_length_eq_zero (by rw [List.length_tail]; omega)
        · next ha =>
          refine List.eq_nil_of_length_eq_zero ?_
          by_cases hi : i = T
          · rw [hi, hT0] at hl; rw [hi]; omega
          · have := hone i (by omega)
            have : s.dummy i ≠ 0 := fun h0 => ha ((active_iff h.toTapes i1).2 ⟨by omega, h0⟩)
            omega
      show ((readTape T s (s.tapenum i)).flatten : Multiset α) = 0
      rw [this]; rfl
    rw [this, add_zero]
  induction n with
  | zero =>
    intro s h
    rw [mergeRuns]
    split
    · next hc => obtain ⟨f1, f2, f3⟩ := fin 0 s h hc.2; exact ⟨_, f1, f2, f3⟩
    · obtain ⟨s', e1, e2⟩ := step 0 s h
      rw [e1]
      simp only
      rw [if_pos (by rw [e2.level])]
      exact ⟨_, rfl, last_ok hT e2⟩
  | succ n ih =>
    intro s h
    rw [mergeRuns]
    split
    · next hc => obtain ⟨f1, f2, f3⟩ := fin (n + 1) s h hc.2; exact ⟨_, f1, f2, f3⟩
    · obtain ⟨s', e1, e2⟩ := step (n + 1) s h
      rw [e1]
      simp only
      rw [if_neg (by rw [e2.level]; omega)]
      exact ih _ (rotate_ok hT e2)

/-! ### The distribution of the runs -/

/-- While runs are made, at level `n + 1`. -/
structure Runs (cmp : α → α → Ordering) (T n : Nat) (total : Multiset α) (s : St α) : Prop extends Tapes cmp T total s where
  level : s.level = n + 1
  fib : ∀ j, j ≤ T → s.fib j = fibs T n j
  num : ∀ j, s.tapenum j = j
  cnt : ∀ j, j ≤ T → s.runs j + s.dummy j = fibs T n j
  dT : s.dummy T = 0
  dest : s.dest < T

/-- Before a run is written: the tapes before `dest` have one dummy run less, the ones behind not more. -/
structure Ready (cmp : α → α → Ordering) (T n : Nat) (total : Multiset α) (s : St α) : Prop extends Runs cmp T n total s where
  pos : 1 ≤ s.dummy s.dest
  before : ∀ i, i < s.dest → s.dummy i + 1 = s.dummy s.dest
  behind : ∀ i, s.dest ≤ i → i < T → s.dummy (i + 1) ≤ s.dummy i

/-- After a run is written. -/
structure Written (cmp : α → α → Ordering) (T n : Nat) (total : Multiset α) (s : St α) : Prop extends Runs cmp T n total s where
  same : ∀ i, i < s.dest → s.dummy i = s.dummy s.dest
  next : s.dummy (s.dest + 1) ≤ s.dummy s.dest + 1
  behind : ∀ i, s.dest < i → i < T → s.dummy (i + 1) ≤ s.dummy i
  real : 1 ≤ s.runs s.dest

theorem dump_ok [Inhabited α] {T n : Nat} {total : Multiset α} {s : St α} (h : Ready cmp T n total s) (mem : List α) :
    Written cmp T n (total + (mem : Multiset α)) (dumpTuples cmp s mem) := by
  have hd := h.dest
  have hnum := h.num
  have hpos := h.pos
  obtain ⟨q1, q2⟩ := C76_list (cmp := cmp) mem
  unfold dumpTuples
  generalize sortMem cmp mem = r at q1 q2
  refine ⟨⟨⟨h.le, h.inj, h.sur, fun j hj => ?_, fun j hj => ?_, fun t q hq => ?_, ?_⟩, h.level, h.fib, h.num, fun j hj => ?_, ?_, hd⟩, fun i hi => ?_, ?_, fun i i1 i2 => ?_, ?_⟩
  · simp only [hnum]
    have hl := h.len j hj
    rw [hnum] at hl
    by_cases hjd : j = s.dest
    · rw [hjd, put_eq, put_eq, List.length_append, List.length_singleton, ← hjd]; omega
    · rw [put_ne _ _ hjd, put_ne _ _ hjd]; exact hl
  · simp only
    by_cases hjd : j = s.dest
    · rw [hjd, put_eq]; omega
    · rw [put_ne _ _ hjd]; exact h.dum j hj
  · simp only [hnum] at hq
    by_cases ht : t = s.dest
    · rw [ht, put_eq, List.mem_append, List.mem_singleton] at hq
      rcases hq with hq | rfl
      · exact h.sorted _ q hq
      · exact q2
    · rw [put_ne _ _ ht] at hq; exact h.sorted t q hq
  · rw [← h.total]
    unfold onTapes
    simp only [hnum]
    have := onRuns_put (M := T + 1) (t := s.dest) (by omega) (fun t => (s.tape t).flatten) ((s.tape s.dest).flatten ++ r)
    rw [← Multiset.coe_add, add_assoc] at this
    have e : (fun t => (put s.tape s.dest (s.tape s.dest ++ [r]) t).flatten) = put (fun t => (s.tape t).flatten) s.dest ((s.tape s.dest).flatten ++ r) := by
      funext t
      unfold put
      split
      · simp
      · rfl
    rw [e, ← add_left_cancel this, ← Multiset.coe_eq_coe.2 q1, add_comm]
  · simp only
    have := h.cnt j hj
    by_cases hjd : j = s.dest
    · rw [hjd] at this ⊢
      rw [put_eq, put_eq]; omega
    · rw [put_ne _ _ hjd, put_ne _ _ hjd]; exact this
  · simp only
    rw [put_ne _ _ (by omega)]; exact h.dT
  · simp only at hi ⊢
    rw [put_eq, put_ne _ _ (by omega)]
    have := h.before i hi
    omega
  · simp only
    rw [put_eq, put_ne _ _ (by omega)]
    have := h.behind s.dest (Nat.le_refl _) hd
    omega
  · simp only at i1 ⊢
    rw [put_ne _ _ (by omega), put_ne _ _ (by omega)]
    exact h.behind i (by omega) i2
  · simp only
    have := h.len s.dest (by omega)
    rw [put_eq]; omega

omit [TransCmp cmp] in
theorem select_ok {T n : Nat} (hT : 2 ≤ T) {total : Multiset α} {s : St α} (h : Written cmp T n total s) : ∃ n', Ready cmp T n' total (selectNewTape T s) := by
  have hd := h.dest
  have hT0 := h.dT
  have hnn := h.dum s.dest (by omega)
  unfold selectNewTape
  split
  · next h1 =>
    have hd1 : s.dest + 1 < T := by
      by_contra hc
      rw [show s.dest + 1 = T by omega, hT0] at h1; omega
    have hnx := h.next
    refine ⟨n, ⟨⟨h.le, h.inj, h.sur, h.len, h.dum, h.sorted, h.total⟩, h.level, h.fib, h.num, h.cnt, h.dT, hd1⟩, by simp only; omega, fun i hi => ?_, fun i i1 i2 => h.behind i (by simp only at i1; omega) i2⟩
    simp only at hi ⊢
    by_cases hi' : i = s.dest
    · rw [hi']; omega
    · rw [h.same i (by omega)]; omega
  · next h1 =>
    have mono : ∀ i, i < T → s.dummy (i + 1) ≤ s.dummy i := by
      intro i hi
      by_cases h2 : i < s.dest
      · rw [h.same i h2]
        by_cases h3 : i + 1 = s.dest
        · rw [h3]
        · rw [h.same (i + 1) (by omega)]
      · by_cases h3 : i = s.dest
        · rw [h3]; omega
        · exact h.behind i (by omega) hi
    split
    · next h2 =>
      refine ⟨n, ⟨⟨h.le, h.inj, h.sur, h.len, h.dum, h.sorted, h.total⟩, h.level, h.fib, h.num, h.cnt, h.dT, by simp only; omega⟩, ?_, fun i hi => by simp only at hi; omega, fun i _ i2 => mono i i2⟩
      simp only
      by_cases h3 : s.dest = 0
      · rw [h3] at h2 hnn; omega
      · rw [h.same 0 (by omega)]; omega
    · next h2 =>
      rw [not_not] at h2
      have zero : ∀ j, j ≤ T → s.dummy j = 0 := by
        intro j hj
        have : ∀ i, s.dest + i ≤ T → s.dummy (s.dest + i) ≤ 0 := by
          intro i
          induction i with
          | zero => intro _; rw [Nat.add_zero, h2]
          | succ i ih => intro hi; exact Int.le_trans (mono (s.dest + i) (by omega)) (ih (by omega))
        by_cases hjd : j < s.dest
        · rw [h.same j hjd, h2]
        · have h3 := this (j - s.dest) (by omega)
          rw [show s.dest + (j - s.dest) = j by omega] at h3
          have := h.dum j hj
          omega
      have hfib := h.fib
      have hp := fibs_pos hT n
      have hTT : fibs T n T = 0 := fibs_out T n (Nat.le_refl _)
      refine ⟨n + 1, ⟨⟨h.le, h.inj, h.sur, h.len, fun j hj => ?_, h.sorted, h.total⟩, by simp only [h.level], fun j hj => ?_, h.num, fun j hj => ?_, ?_, by simp only; omega⟩, ?_, fun i hi => by simp only at hi; omega,
        fun i _ i2 => ?_⟩
      · simp only
        split
        · next hj' =>
          rw [hfib 0 (by omega), hfib (j + 1) (by omega), hfib j hj]
          have h3 := fibs_le T n (Nat.zero_le j)
          have h4 := fibs_nonneg T n (j + 1)
          omega
        · exact h.dum j hj
      · simp only
        split
        · next hj' => rw [hfib 0 (by omega), hfib (j + 1) (by omega), fibs, if_pos hj']
        · next hj' => rw [hfib j hj, fibs_out T n (by omega), fibs_out T (n + 1) (by omega)]
      · simp only
        have hc := h.cnt j hj
        rw [zero j hj] at hc
        split
        · next hj' =>
          rw [hfib 0 (by omega), hfib (j + 1) (by omega), hfib j hj, fibs, if_pos hj']
          omega
        · next hj' =>
          rw [zero j hj, hc, fibs_out T n (by omega), fibs_out T (n + 1) (by omega)]
      · simp only
        rw [if_neg (by omega)]; exact hT0
      · simp only
        rw [if_pos (by omega), hfib 0 (by omega), hfib (0 + 1) (by omega), Nat.zero_add]; omega
      · simp only
        rw [if_pos i2, hfib 0 (by omega), hfib (i + 1) (by omega), hfib i (by omega)]
        split
        · next h3 =>
          rw [hfib (i + 1 + 1) (by omega)]
          have := fibs_concave T n i (by omega)
          rw [show i + 1 + 1 = i + 2 from rfl]; omega
        · next h3 =>
          have h4 := fibs_le T n (Nat.zero_le i)
          have h5 := fibs_nonneg T n (i + 1)
          rw [show i + 1 = T by omega, hT0] at *
          omega

omit [TransCmp cmp] in
theorem init_ok {T : Nat} (hT : 2 ≤ T) : Ready cmp T 0 0 (initTapes (α := α) T) := by
  have hput : ∀ j, put (fun _ => (1 : Int)) T 0 j = if j = T then 0 else 1 := fun _ => rfl
  unfold initTapes
  refine ⟨⟨⟨fun j hj => hj, fun i j _ _ h => h, fun t ht => ⟨t, ht, rfl⟩, fun j _ => rfl, fun j _ => ?_, fun t r hr => (by cases hr), ?_⟩, rfl, fun j hj => ?_, fun j => rfl, fun j hj => ?_, ?_, ?_⟩,
    ?_, fun i hi => (by simp only at hi; omega), fun i _ i2 => ?_⟩
  · simp only [hput]; split <;> omega
  · unfold onTapes onRuns
    exact Finset.sum_eq_zero (fun t _ => rfl)
  · simp only [hput, fibs]; split <;> split <;> omega
  · simp only [hput, fibs]; split <;> split <;> omega
  · simp only [hput]; rw [if_pos trivial]
  · simp only; omega
  · simp only [hput]; rw [if_neg (by omega)]
  · simp only [hput]; split <;> split <;> omega

theorem makeRuns_ok [Inhabited α] {T : Nat} (hT : 2 ≤ T) (full : List (List α)) : ∀ (s : St α) (n : Nat) (total : Multiset α), Ready cmp T n total s →
    ∃ n', Ready cmp T n' (total + (full.flatten : Multiset α)) (makeRuns cmp T full s) := by
  induction full with
  | nil => intro s n total h; exact ⟨n, by rw [List.flatten_nil, Multiset.coe_nil, add_zero]; exact h⟩
  | cons mem full ih =>
    intro s n total h
    rw [makeRuns]
    obtain ⟨n1, h1⟩ := select_ok hT (dump_ok h mem)
    obtain ⟨n2, h2⟩ := ih _ n1 _ h1
    refine ⟨n2, ?_⟩
    rw [List.flatten_cons, ← Multiset.coe_add, ← add_assoc]
    exact h2

/-! ### Properties -/

/-- **C77.** A sort that does not fit in memory, for every division of the input into portions (of any number and sizes), every number of tapes from three on, and every comparison that is a total
preorder, whether the result is put on a tape or merged while it is fetched: it ends, no assertion fails, and the tuples come out in order, each as often as it was put in. -/
theorem C77_sort [Inhabited α] (ra : Bool) (T : Nat) (hT : 2 ≤ T) (full : List (List α)) (last : List α) :
    ∃ out, tapeSort cmp ra T full last = some out ∧ out.Perm (full.flatten ++ last) ∧ out.Pairwise (fun x y => cmp x y ≠ .gt) := by
  obtain ⟨n, h1⟩ := makeRuns_ok (cmp := cmp) hT full _ 0 0 (init_ok hT)
  rw [zero_add] at h1
  have h2 := dump_ok h1 last
  unfold tapeSort
  simp only
  generalize dumpTuples cmp (makeRuns cmp T full (initTapes T)) last = s at h2
  have hd := h2.dest
  have hm : Merging cmp T n 0 ((full.flatten : Multiset α) + (last : Multiset α)) s := by
    have hl := h2.len T (Nat.le_refl _)
    have hc := h2.cnt T (Nat.le_refl _)
    rw [fibs_out T n (Nat.le_refl _)] at hc
    exact ⟨h2.toTapes, h2.level, fun j hj => by rw [h2.cnt j (by omega)]; omega, hc, ⟨s.dest, by omega, h2.real⟩⟩
  obtain ⟨out, e1, e2, e3⟩ := mergeRuns_ok hT ra n s hm
  rw [h2.level]
  exact ⟨out, e1, Multiset.coe_eq_coe.1 (by rw [e3, Multiset.coe_add]), e2⟩

omit [TransCmp cmp] in
theorem fill_size (m : Nat) : ∀ (k : Nat) (rest : Nat → List α) (h : (Nat → α × Nat) × Nat),
    (fill cmp m k rest h).1.2 = h.2 + ((List.range' k m).filter (fun t => !(rest t).isEmpty)).length := by
  induction m with
  | zero => intro k rest h; rfl
  | succ m ih =>
    intro k rest h
    rw [fill, List.range'_succ]
    split
    · next he => rw [ih, List.filter_cons_of_neg (by simp [he])]
    · next y ys he =>
      rw [ih, List.filter_cons_of_pos (by simp [he]), List.length_cons, heapInsert]
      have : (List.range' (k + 1) m).filter (fun t => !(put rest k ys t).isEmpty) = (List.range' (k + 1) m).filter (fun t => !(rest t).isEmpty) :=
        List.filter_congr (fun t ht => by rw [put_ne _ _ (by have := List.mem_range'_1.1 ht; omega)])
      rw [this]
      simp only; omega

omit [TransCmp cmp] in
/-- **C77 (room in the heap).** When a merge begins the heap has one element for each run that has tuples, and while the merge goes on it never has more: replacing keeps the number, deleting
lowers it by one. -/
theorem C77_heap (M : Nat) (rest : Nat → List α) (h0 : Nat → α × Nat) :
    (fill cmp M 0 rest (h0, 0)).1.2 = ((List.range M).filter (fun t => !(rest t).isEmpty)).length ∧
    (∀ (h : (Nat → α × Nat) × Nat) (x : α × Nat), (heapReplace (cmpFst cmp) h x).2 = h.2) ∧
    (∀ h : (Nat → α × Nat) × Nat, 0 < h.2 → (heapDelete (cmpFst cmp) h).2 = h.2 - 1) := by
  refine ⟨?_, fun h x => rfl, fun h hh => ?_⟩
  · rw [fill_size, List.range_eq_range', Nat.zero_add]
  · unfold heapDelete
    split
    · simp only; omega
    · rfl

end

/-- **C77 (ORDER BY).** An ORDER BY sort that does not fit in memory returns what C36 and C48 assume. -/
theorem C77_orderby {F : Type} [Inhabited F] {cmpF : F → F → Ordering} [TransCmp cmpF] (zero : F) (nKeys : Nat) (byTid : Bool) (ra : Bool) (T : Nat) (hT : 2 ≤ T)
    (full : List (List (Rum.Sort.SortItem F))) (last : List (Rum.Sort.SortItem F)) :
    ∃ out, tapeSort (Rum.Sort.cmpSortItem cmpF zero nKeys byTid) ra T full last = some out ∧
      Rum.Sort.SortedBy (Rum.Sort.cmpSortItem cmpF zero nKeys byTid) (full.flatten ++ last) out := by
  have := Rum.Props.Sort.C36_comparator_transitive (cmpF := cmpF) zero nKeys byTid
  obtain ⟨out, h1, h2, h3⟩ := C77_sort (cmp := Rum.Sort.cmpSortItem cmpF zero nKeys byTid) ra T hT full last
  exact ⟨out, h1, h2, h3⟩

/-- Four tapes, nine portions and a rest: three levels, dummy runs, both ways to fetch the result. -/
theorem C77_witness : ∀ ra : Bool, tapeSort (α := Nat) compare ra 3 [[5, 1], [7, 7], [2, 9], [4, 0], [8, 3], [6, 6], [1, 1], [10, 2], [5, 5]] [3] =
    some [0, 1, 1, 1, 2, 2, 3, 3, 4, 5, 5, 5, 6, 6, 7, 7, 8, 9, 10] := by decide +kernel

end Rum.Props.TapeSort
