import Verif.QSort
import Verif.Props.Bulk
import Verif.Props.Collect
import Mathlib.Logic.Equiv.Basic
/-!
# C76: the sort in memory sorts

What RUM's copy of PostgreSQL's quicksort does to the array: a rearrangement in an order the comparison accepts, nothing outside the array is touched, and the stack stays
small.
-/
namespace Rum.Props.QSort
open Rum Rum.QSort Std

variable {α : Type} {cmp : α → α → Ordering}

/-! ### Specification -/

/-- The positions from `lo` to `hi` (not included) are in order. -/
def InOrder (cmp : α → α → Ordering) (f : Nat → α) (lo hi : Nat) : Prop := ∀ i j, lo ≤ i → i < j → j < hi → cmp (f i) (f j) ≠ .gt

/-- `g` is a rearrangement of `f` within the positions from `lo` to `hi` (not included). -/
def Rearranged (f g : Nat → α) (lo hi : Nat) : Prop := ∃ σ : Equiv.Perm Nat, (∀ k, ¬ (lo ≤ k ∧ k < hi) → σ k = k) ∧ ∀ k, g k = f (σ k)

/-! ### Rearrangements -/

section
variable {f g h : Nat → α} {lo hi : Nat}

theorem Rearranged.refl (f : Nat → α) (lo hi : Nat) : Rearranged f f lo hi := ⟨Equiv.refl _, fun _ _ => rfl, fun _ => rfl⟩

theorem Rearranged.trans (h1 : Rearranged f g lo hi) (h2 : Rearranged g h lo hi) : Rearranged f h lo hi := by
  obtain ⟨σ, a1, a2⟩ := h1
  obtain ⟨τ, b1, b2⟩ := h2
  refine ⟨τ.trans σ, fun k hk => ?_, fun k => ?_⟩
  · show σ (τ k) = k
    rw [b1 k hk, a1 k hk]
  · rw [b2, a2]; rfl

theorem Rearranged.mono {lo' hi' : Nat} (h1 : Rearranged f g lo hi) (hl : lo' ≤ lo) (hh : hi ≤ hi') : Rearranged f g lo' hi' := by
  obtain ⟨σ, a1, a2⟩ := h1
  exact ⟨σ, fun k hk => a1 k (by omega), a2⟩

theorem Rearranged.outside (h1 : Rearranged f g lo hi) {k : Nat} (hk : ¬ (lo ≤ k ∧ k < hi)) : g k = f k := by
  obtain ⟨σ, a1, a2⟩ := h1
  rw [a2, a1 k hk]

theorem Rearranged.forall {P : α → Prop} {lo' hi' : Nat} (h1 : Rearranged f g lo hi) (hl : lo' ≤ lo) (hh : hi ≤ hi') (hP : ∀ k, lo' ≤ k → k < hi' → P (f k)) :
    ∀ k, lo' ≤ k → k < hi' → P (g k) := by
  obtain ⟨σ, a1, a2⟩ := h1.mono hl hh
  intro k k1 k2
  rw [a2]
  have : lo' ≤ σ k ∧ σ k < hi' := by
    by_contra hc
    have := a1 _ hc
    have := σ.injective this
    omega
  exact hP _ this.1 this.2

theorem swap_rearranged (f : Nat → α) {i j : Nat} (hi1 : lo ≤ i) (hi2 : i < hi) (hj1 : lo ≤ j) (hj2 : j < hi) : Rearranged f (swap f i j) lo hi := by
  refine ⟨Equiv.swap i j, fun k hk => Equiv.swap_apply_of_ne_of_ne (by omega) (by omega), fun k => ?_⟩
  rw [swap, Equiv.swap_apply_def]
  split
  · rfl
  · split <;> rfl

theorem Rearranged.perm {n : Nat} (h1 : Rearranged f g 0 n) : ((List.range n).map g).Perm ((List.range n).map f) := by
  obtain ⟨σ, a1, a2⟩ := h1
  have : (List.range n).map g = ((List.range n).map σ).map f := by
    rw [List.map_map]; exact List.map_congr_left (fun k _ => a2 k)
  rw [this]
  refine List.Perm.map f ((List.perm_ext_iff_of_nodup (List.nodup_range.map σ.injective) List.nodup_range).2 (fun k => ?_))
  have hin : ∀ k, k < n → σ k < n := by
    intro k hk
    by_contra hc
    have := σ.injective (a1 _ (by omega : ¬ (0 ≤ σ k ∧ σ k < n)))
    omega
  have hin' : ∀ k, σ k < n → k < n := by
    intro k hk
    by_contra hc
    rw [a1 k (by omega)] at hk
    exact hc hk
  rw [List.mem_map, List.mem_range]
  constructor
  · rintro ⟨j, hj, rfl⟩; exact hin j (List.mem_range.1 hj)
  · intro hk
    exact ⟨σ.symm k, List.mem_range.2 (hin' _ (by simpa using hk)), by simp⟩
end

theorem vecswap_rearranged {lo hi : Nat} (n : Nat) : ∀ (f : Nat → α) (a b : Nat), lo ≤ a → a + n ≤ b → b + n ≤ hi → Rearranged f (vecswap f a b n) lo hi := by
  induction n with
  | zero => intro f a b _ _ _; exact .refl _ _ _
  | succ n ih =>
    intro f a b h1 h2 h3
    exact (swap_rearranged f h1 (by omega) (by omega) (by omega)).trans (ih _ (a + 1) (b + 1) (by omega) (by omega) (by omega))

theorem vecswap_apply (n : Nat) : ∀ (f : Nat → α) (a b k : Nat), a + n ≤ b →
    vecswap f a b n k = if a ≤ k ∧ k < a + n then f (k - a + b) else if b ≤ k ∧ k < b + n then f (k - b + a) else f k := by
  induction n with
  | zero => intro f a b k _; rw [vecswap, if_neg (by omega), if_neg (by omega)]
  | succ n ih =>
    intro f a b k h
    rw [vecswap, ih _ _ _ _ (by omega)]
    by_cases hk : a + 1 ≤ k ∧ k < a + 1 + n
    · rw [if_pos hk, if_pos (by omega), swap, if_neg (by omega), if_neg (by omega)]
      congr 1; omega
    · rw [if_neg hk]
      by_cases hk' : b + 1 ≤ k ∧ k < b + 1 + n
      · rw [if_pos hk', if_neg (by omega), if_pos (by omega), swap, if_neg (by omega), if_neg (by omega)]
        congr 1; omega
      · rw [if_neg hk', swap]
        by_cases ha : k = a
        · subst ha; rw [if_pos rfl, if_pos (by omega)]; congr 1; omega
        · rw [if_neg ha]
          by_cases hb : k = b
          · subst hb; rw [if_pos rfl, if_neg (by omega), if_pos (by omega)]; congr 1; omega
          · rw [if_neg hb, if_neg (by omega), if_neg (by omega)]

/-! ### The order -/

section
variable [TransCmp cmp]

theorem le_trans' {x y z : α} (h1 : cmp x y ≠ .gt) (h2 : cmp y z ≠ .gt) : cmp x z ≠ .gt := by
  have h1' : (cmp x y).isLE := by revert h1; cases cmp x y <;> simp
  have h2' : (cmp y z).isLE := by revert h2; cases cmp y z <;> simp
  have h3 := TransCmp.isLE_trans h1' h2'
  intro h
  rw [h] at h3
  cases h3

omit [TransCmp cmp] in
theorem le_of_gt [OrientedCmp cmp] {x y : α} (h : cmp x y = .gt) : cmp y x ≠ .gt := by
  rw [OrientedCmp.gt_iff_lt] at h
  rw [h]; decide

/-! ### Insertion sort -/

theorem sink_ok (a p : Nat) : ∀ f : Nat → α, a ≤ p → Rearranged f (sink cmp a p f) a (p + 1) ∧
    ∀ q, p ≤ q → (∀ i j, a ≤ i → i < j → j ≤ q → i ≠ p → j ≠ p → cmp (f i) (f j) ≠ .gt) → (∀ j, p < j → j ≤ q → cmp (f p) (f j) ≠ .gt) →
      InOrder cmp (sink cmp a p f) a (q + 1) := by
  induction p with
  | zero =>
    intro f ha
    refine ⟨.refl _ _ _, fun q _ h1 h2 i j i1 i2 j1 => ?_⟩
    by_cases hi : i = 0
    · subst hi; exact h2 j i2 (by omega)
    · exact h1 i j i1 i2 (by omega) hi (by omega)
  | succ p ih =>
    intro f ha
    rw [sink]
    split
    · next hc =>
      obtain ⟨r1, r2⟩ := ih (swap f (p + 1) p) (by omega)
      refine ⟨(swap_rearranged f (by omega) (by omega) (by omega) (by omega)).trans (r1.mono (Nat.le_refl _) (by omega)), fun q hq h1 h2 => ?_⟩
      refine r2 q (by omega) (fun i j i1 i2 j1 i3 j2 => ?_) (fun j j1 j2 => ?_)
      · unfold swap
        by_cases hi : i = p + 1
        · rw [if_pos hi, if_neg (by omega), if_neg j2]
          exact h1 p j (by omega) (by omega) j1 (by omega) (by omega)
        · rw [if_neg hi, if_neg i3]
          by_cases hj : j = p + 1
          · rw [if_pos hj]
            exact h1 i p i1 (by omega) (by omega) hi (by omega)
          · rw [if_neg hj, if_neg j2]
            exact h1 i j i1 i2 j1 hi hj
      · unfold swap
        rw [if_neg (by omega : ¬ p = p + 1), if_pos rfl]
        by_cases hj : j = p + 1
        · rw [if_pos hj]; exact le_of_gt hc.2
        · rw [if_neg hj, if_neg (by omega)]
          exact h2 j (by omega) j2
    · next hc =>
      refine ⟨.refl _ _ _, fun q hq h1 h2 i j i1 i2 j1 => ?_⟩
      by_cases hi : i = p + 1
      · subst hi; exact h2 j i2 (by omega)
      · by_cases hj : j = p + 1
        · subst hj
          have hg : cmp (f p) (f (p + 1)) ≠ .gt := fun h => hc ⟨by omega, h⟩
          by_cases hip : i = p
          · rw [hip]; exact hg
          · exact le_trans' (h1 i p i1 (by omega) (by omega) hi (by omega)) hg
        · exact h1 i j i1 i2 (by omega) hi hj

theorem isort_ok (a m : Nat) : ∀ (pm : Nat) (f : Nat → α), a ≤ pm → InOrder cmp f a pm →
    Rearranged f (isort cmp a m pm f) a (pm + m) ∧ InOrder cmp (isort cmp a m pm f) a (pm + m) := by
  induction m with
  | zero => intro pm f _ h; exact ⟨.refl _ _ _, h⟩
  | succ m ih =>
    intro pm f ha h
    obtain ⟨s1, s2⟩ := sink_ok (cmp := cmp) a pm f ha
    obtain ⟨r1, r2⟩ := ih (pm + 1) (sink cmp a pm f) (by omega) (s2 pm (Nat.le_refl _) (fun i j i1 i2 j1 _ j2 => h i j i1 i2 (by omega)) (fun j j1 j2 => by omega))
    rw [show pm + (m + 1) = pm + 1 + m by omega]
    exact ⟨(s1.mono (Nat.le_refl _) (by omega)).trans r1, r2⟩

theorem presorted_ok (f : Nat → α) (a m : Nat) : ∀ pm, a < pm → InOrder cmp f a pm → presorted cmp f m pm = true → InOrder cmp f a (pm + m) := by
  induction m with
  | zero => intro pm _ h _; exact h
  | succ m ih =>
    intro pm ha h hp
    rw [presorted] at hp
    split at hp
    · cases hp
    · next hg =>
      rw [show pm + (m + 1) = pm + 1 + m by omega]
      refine ih (pm + 1) (by omega) (fun i j i1 i2 j1 => ?_) hp
      by_cases hj : j = pm
      · subst hj
        by_cases hi : i = j - 1
        · rw [hi]; exact hg
        · exact le_trans' (h i (j - 1) i1 (by omega) (by omega)) hg
      · exact h i j i1 i2 (by omega)

/-! ### Partition -/

/-- Loop invariant of the partition: first the tuples equal to the pivot, then those below it, those not looked at, those above, and equal ones again. -/
structure PartOK (cmp : α → α → Ordering) (f0 : Nat → α) (v : α) (a n : Nat) (p : Part α) : Prop where
  piv : p.f a = v
  ha : a + 1 ≤ p.pa
  hab : p.pa ≤ p.pb
  hbc : p.pb ≤ p.pc + 1
  hcd : p.pc ≤ p.pd
  hd : p.pd < a + n
  eq1 : ∀ k, a + 1 ≤ k → k < p.pa → cmp (p.f k) v = .eq
  lt : ∀ k, p.pa ≤ k → k < p.pb → cmp (p.f k) v = .lt
  gt : ∀ k, p.pc < k → k ≤ p.pd → cmp (p.f k) v = .gt
  eq2 : ∀ k, p.pd < k → k < a + n → cmp (p.f k) v = .eq
  re : Rearranged f0 p.f a (a + n)

omit [TransCmp cmp] in
theorem scanL_ok {f0 : Nat → α} {v : α} {a n : Nat} (m : Nat) : ∀ p : Part α, PartOK cmp f0 v a n p → p.pc + 1 - p.pb ≤ m →
    PartOK cmp f0 v a n (scanL cmp a m p) ∧ (scanL cmp a m p).pc = p.pc ∧ p.pb ≤ (scanL cmp a m p).pb ∧
      ((scanL cmp a m p).pb ≤ (scanL cmp a m p).pc → cmp ((scanL cmp a m p).f (scanL cmp a m p).pb) v = .gt) := by
  induction m with
  | zero =>
    intro p h hm
    have := h.hbc
    exact ⟨h, rfl, Nat.le_refl _, fun hc => by rw [scanL] at hc; omega⟩
  | succ m ih =>
    intro p h hm
    have ⟨h1, h2, h3, h4, h5, h6, q1, q2, q3, q4, q5⟩ := h
    rw [scanL]
    split
    · next hle =>
      split
      · next hc => exact ⟨h, rfl, Nat.le_refl _, fun _ => by rw [← h1]; exact hc⟩
      · next hc =>
        rw [h1] at hc
        obtain ⟨r1, r2, r3, r4⟩ := ih ⟨swap p.f p.pa p.pb, p.pa + 1, p.pb + 1, p.pc, p.pd⟩ (by
          refine ⟨?_, by simp only; omega, by simp only; omega, by simp only; omega, h5, h6, fun k k1 k2 => ?_, fun k k1 k2 => ?_, fun k k1 k2 => ?_, fun k k1 k2 => ?_,
            q5.trans (swap_rearranged _ (by omega) (by omega) (by omega) (by omega))⟩
          · simp only [swap]; rw [if_neg (by omega), if_neg (by omega)]; exact h1
          · simp only [swap] at k2 ⊢
            by_cases hk : k = p.pa
            · rw [if_pos hk]; exact hc
            · rw [if_neg hk, if_neg (by omega)]; exact q1 k k1 (by omega)
          · simp only [swap] at k1 k2 ⊢
            rw [if_neg (by omega)]
            by_cases hk : k = p.pb
            · rw [if_pos hk]; exact q2 _ (by omega) (by omega)
            · rw [if_neg hk]; exact q2 k (by omega) (by omega)
          · simp only [swap] at k1 k2 ⊢
            rw [if_neg (by omega), if_neg (by omega)]; exact q3 k k1 k2
          · simp only [swap] at k1 k2 ⊢
            rw [if_neg (by omega), if_neg (by omega)]; exact q4 k k1 k2) (by simp only; omega)
        exact ⟨r1, r2, by simp only at r3; omega, r4⟩
      · next hc =>
        rw [h1] at hc
        obtain ⟨r1, r2, r3, r4⟩ := ih ⟨p.f, p.pa, p.pb + 1, p.pc, p.pd⟩ (by
          refine ⟨h1, h2, by simp only; omega, by simp only; omega, h5, h6, q1, fun k k1 k2 => ?_, q3, q4, q5⟩
          simp only at k1 k2 ⊢
          by_cases hk : k = p.pb
          · rw [hk]; exact hc
          · exact q2 k k1 (by omega)) (by simp only; omega)
        exact ⟨r1, r2, by simp only at r3; omega, r4⟩
    · next hle => exact ⟨h, rfl, Nat.le_refl _, fun hc => absurd hc hle⟩

omit [TransCmp cmp] in
theorem scanR_ok {f0 : Nat → α} {v : α} {a n : Nat} (m : Nat) : ∀ p : Part α, PartOK cmp f0 v a n p → p.pc + 1 - p.pb ≤ m →
    PartOK cmp f0 v a n (scanR cmp a m p) ∧ (scanR cmp a m p).pb = p.pb ∧ (scanR cmp a m p).pc ≤ p.pc ∧
      ((scanR cmp a m p).pb ≤ (scanR cmp a m p).pc → cmp ((scanR cmp a m p).f (scanR cmp a m p).pc) v = .lt ∧ (scanR cmp a m p).f p.pb = p.f p.pb) := by
  induction m with
  | zero =>
    intro p h hm
    have := h.hbc
    exact ⟨h, rfl, Nat.le_refl _, fun hc => by rw [scanR] at hc; omega⟩
  | succ m ih =>
    intro p h hm
    have ⟨h1, h2, h3, h4, h5, h6, q1, q2, q3, q4, q5⟩ := h
    rw [scanR]
    split
    · next hle =>
      split
      · next hc => exact ⟨h, rfl, Nat.le_refl _, fun _ => ⟨by rw [← h1]; exact hc, rfl⟩⟩
      · next hc =>
        rw [h1] at hc
        obtain ⟨r1, r2, r3, r4⟩ := ih ⟨swap p.f p.pc p.pd, p.pa, p.pb, p.pc - 1, p.pd - 1⟩ (by
          refine ⟨?_, h2, h3, by simp only; omega, by simp only; omega, by simp only; omega, fun k k1 k2 => ?_, fun k k1 k2 => ?_, fun k k1 k2 => ?_, fun k k1 k2 => ?_,
            q5.trans (swap_rearranged _ (by omega) (by omega) (by omega) (by omega))⟩
          · simp only [swap]; rw [if_neg (by omega), if_neg (by omega)]; exact h1
          · simp only [swap] at k1 k2 ⊢
            rw [if_neg (by omega), if_neg (by omega)]; exact q1 k k1 k2
          · simp only [swap] at k1 k2 ⊢
            rw [if_neg (by omega), if_neg (by omega)]; exact q2 k k1 k2
          · simp only [swap] at k1 k2 ⊢
            by_cases hk : k = p.pc
            · rw [if_pos hk]; exact q3 _ (by omega) (by omega)
            · rw [if_neg hk, if_neg (by omega)]; exact q3 k (by omega) (by omega)
          · simp only [swap] at k1 k2 ⊢
            by_cases hk : k = p.pc
            · have : p.pc = p.pd := by omega
              rw [if_pos hk, ← this]; exact hc
            · rw [if_neg hk]
              by_cases hk' : k = p.pd
              · rw [if_pos hk']; exact hc
              · rw [if_neg hk']; exact q4 k (by omega) k2) (by simp only; omega)
        refine ⟨r1, r2, by simp only at r3; omega, fun hc' => ?_⟩
        obtain ⟨s1, s2⟩ := r4 hc'
        refine ⟨s1, s2.trans ?_⟩
        simp only at r2 r3 ⊢
        rw [swap, if_neg (by omega), if_neg (by omega)]
      · next hc =>
        rw [h1] at hc
        obtain ⟨r1, r2, r3, r4⟩ := ih ⟨p.f, p.pa, p.pb, p.pc - 1, p.pd⟩ (by
          refine ⟨h1, h2, h3, by simp only; omega, by simp only; omega, h6, q1, q2, fun k k1 k2 => ?_, q4, q5⟩
          simp only at k1 k2 ⊢
          by_cases hk : k = p.pc
          · rw [hk]; exact hc
          · exact q3 k (by omega) k2) (by simp only; omega)
        exact ⟨r1, r2, by simp only at r3; omega, r4⟩
    · next hle => exact ⟨h, rfl, Nat.le_refl _, fun hc => absurd hc hle⟩

omit [TransCmp cmp] in
theorem split_ok {f0 : Nat → α} {v : α} {a n : Nat} (m : Nat) : ∀ p : Part α, PartOK cmp f0 v a n p → p.pc + 1 - p.pb < m →
    PartOK cmp f0 v a n (split cmp a m p) ∧ (split cmp a m p).pb = (split cmp a m p).pc + 1 := by
  induction m with
  | zero => intro p _ hm; omega
  | succ m ih =>
    intro p h hm
    obtain ⟨l1, l2, l3, l4⟩ := scanL_ok _ p h (Nat.le_refl _)
    rw [split]
    generalize scanL cmp a (p.pc + 1 - p.pb) p = p1 at l1 l2 l3 l4
    obtain ⟨r1, r2, r3, r4⟩ := scanR_ok _ p1 l1 (Nat.le_refl _)
    generalize scanR cmp a (p1.pc + 1 - p1.pb) p1 = p2 at r1 r2 r3 r4
    have ⟨h1, h2, h3, h4, h5, h6, q1, q2, q3, q4, q5⟩ := r1
    split
    · next hgt => exact ⟨r1, by omega⟩
    · next hgt =>
      have hle : p2.pb ≤ p2.pc := by omega
      obtain ⟨s1, s2⟩ := r4 hle
      have s3 : cmp (p2.f p2.pb) v = .gt := by rw [r2, s2]; exact l4 (by omega)
      have hne : p2.pb ≠ p2.pc := by
        intro he
        rw [he, s1] at s3
        cases s3
      refine ih _ ⟨?_, h2, by simp only; omega, by simp only; omega, by simp only; omega, h6, fun k k1 k2 => ?_, fun k k1 k2 => ?_, fun k k1 k2 => ?_, fun k k1 k2 => ?_,
        q5.trans (swap_rearranged _ (by omega) (by omega) (by omega) (by omega))⟩ (by simp only; omega)
      · simp only [swap]; rw [if_neg (by omega), if_neg (by omega)]; exact h1
      · simp only [swap] at k1 k2 ⊢
        rw [if_neg (by omega), if_neg (by omega)]; exact q1 k k1 k2
      · simp only [swap] at k1 k2 ⊢
        by_cases hk : k = p2.pb
        · rw [if_pos hk]; exact s1
        · rw [if_neg hk, if_neg (by omega)]; exact q2 k k1 (by omega)
      · simp only [swap] at k1 k2 ⊢
        rw [if_neg (by omega)]
        by_cases hk : k = p2.pc
        · rw [if_pos hk]; exact s3
        · rw [if_neg hk]; exact q3 k (by omega) k2
      · simp only [swap] at k1 k2 ⊢
        rw [if_neg (by omega), if_neg (by omega)]; exact q4 k k1 k2

/-- Three parts: below the pivot, equal to it, above it. -/
structure Three (cmp : α → α → Ordering) (v : α) (a t u n : Nat) (g : Nat → α) : Prop where
  lt : ∀ k, a ≤ k → k < a + t → cmp (g k) v = .lt
  eq : ∀ k, a + t ≤ k → k < a + n - u → cmp (g k) v = .eq
  gt : ∀ k, a + n - u ≤ k → k < a + n → cmp (g k) v = .gt

theorem middle_ok {f0 : Nat → α} {v : α} {a n : Nat} {p : Part α} (h : PartOK cmp f0 v a n p) (hp : p.pb = p.pc + 1) :
    Three cmp v a (p.pb - p.pa) (p.pd - p.pc) n (middle a n p) ∧ Rearranged f0 (middle a n p) a (a + n) ∧ (p.pb - p.pa) + (p.pd - p.pc) < n := by
  have ⟨h1, h2, h3, h4, h5, h6, q1, q2, q3, q4, q5⟩ := h
  have hv : cmp v v = .eq := ReflCmp.compare_self
  have q1' : ∀ k, a ≤ k → k < p.pa → cmp (p.f k) v = .eq := by
    intro k k1 k2
    by_cases hk : k = a
    · rw [hk, h1]; exact hv
    · exact q1 k (by omega) k2
  unfold middle
  simp only
  have e1 : p.pa - a ≤ p.pb - p.pa ∧ min (p.pa - a) (p.pb - p.pa) = p.pa - a ∨ p.pb - p.pa ≤ p.pa - a ∧ min (p.pa - a) (p.pb - p.pa) = p.pb - p.pa := by omega
  have e2 : p.pd - p.pc ≤ a + n - p.pd - 1 ∧ min (p.pd - p.pc) (a + n - p.pd - 1) = p.pd - p.pc ∨
      a + n - p.pd - 1 ≤ p.pd - p.pc ∧ min (p.pd - p.pc) (a + n - p.pd - 1) = a + n - p.pd - 1 := by omega
  generalize min (p.pa - a) (p.pb - p.pa) = d1 at e1
  generalize min (p.pd - p.pc) (a + n - p.pd - 1) = d2 at e2
  have key : ∀ k, vecswap (vecswap p.f a (p.pb - d1) d1) p.pb (a + n - d2) d2 k =
      if p.pb ≤ k ∧ k < p.pb + d2 then p.f (k - p.pb + (a + n - d2)) else if a + n - d2 ≤ k ∧ k < a + n then p.f (k - (a + n - d2) + p.pb) else
      if a ≤ k ∧ k < a + d1 then p.f (k - a + (p.pb - d1)) else if p.pb - d1 ≤ k ∧ k < p.pb then p.f (k - (p.pb - d1) + a) else p.f k := by
    intro k
    rw [vecswap_apply _ _ _ _ _ (by omega)]
    have hin : ∀ j, p.pb ≤ j → vecswap p.f a (p.pb - d1) d1 j = p.f j := by
      intro j hj
      rw [vecswap_apply _ _ _ _ _ (by omega), if_neg (by omega), if_neg (by omega)]
    by_cases c1 : p.pb ≤ k ∧ k < p.pb + d2
    · rw [if_pos c1, if_pos c1, hin _ (by omega)]
    · rw [if_neg c1, if_neg c1]
      by_cases c2 : a + n - d2 ≤ k ∧ k < a + n
      · rw [if_pos c2, if_pos (by omega), hin _ (by omega)]
      · rw [if_neg c2, if_neg (by omega), vecswap_apply _ _ _ _ _ (by omega)]
        by_cases c3 : a ≤ k ∧ k < a + d1
        · rw [if_pos c3, if_pos c3]
        · rw [if_neg c3, if_neg c3]
          by_cases c4 : p.pb - d1 ≤ k ∧ k < p.pb
          · rw [if_pos c4, if_pos (by omega)]
          · rw [if_neg c4, if_neg (by omega)]
  refine ⟨⟨fun k k1 k2 => ?_, fun k k1 k2 => ?_, fun k k1 k2 => ?_⟩, ?_, by omega⟩
  · rw [key, if_neg (by omega), if_neg (by omega)]
    by_cases c3 : a ≤ k ∧ k < a + d1
    · rw [if_pos c3]; exact q2 _ (by omega) (by omega)
    · rw [if_neg c3, if_neg (by omega)]; exact q2 _ (by omega) (by omega)
  · rw [key]
    by_cases c1 : p.pb ≤ k ∧ k < p.pb + d2
    · rw [if_pos c1]; exact q4 _ (by omega) (by omega)
    · rw [if_neg c1, if_neg (by omega)]
      by_cases hk : p.pb ≤ k
      · rw [if_neg (by omega), if_neg (by omega)]
        exact q4 _ (by omega) (by omega)
      · rw [if_neg (by omega)]
        by_cases c4 : p.pb - d1 ≤ k ∧ k < p.pb
        · rw [if_pos c4]; exact q1' _ (by omega) (by omega)
        · rw [if_neg c4]; exact q1' _ (by omega) (by omega)
  · rw [key, if_neg (by omega)]
    by_cases c2 : a + n - d2 ≤ k ∧ k < a + n
    · rw [if_pos c2]; exact q3 _ (by omega) (by omega)
    · rw [if_neg c2, if_neg (by omega), if_neg (by omega)]; exact q3 _ (by omega) (by omega)
  · exact (q5.trans (vecswap_rearranged d1 _ _ _ (Nat.le_refl _) (by omega) (by omega))).trans (vecswap_rearranged d2 _ _ _ (by omega) (by omega) (by omega))

/-- Where the parts are in order everything is. -/
theorem Three.inOrder {v : α} {a t u n : Nat} {g : Nat → α} (h : Three cmp v a t u n g) (h1 : InOrder cmp g a (a + t))
    (h2 : InOrder cmp g (a + n - u) (a + n)) : InOrder cmp g a (a + n) := by
  obtain ⟨hl, he, hg⟩ := h
  have lv : ∀ k, a ≤ k → k < a + n - u → cmp (g k) v ≠ .gt := by
    intro k k1 k2
    by_cases hk : k < a + t
    · rw [hl k k1 hk]; decide
    · rw [he k (by omega) k2]; decide
  have vg : ∀ k, a + t ≤ k → k < a + n → cmp v (g k) ≠ .gt := by
    intro k k1 k2
    by_cases hk : k < a + n - u
    · rw [OrientedCmp.eq_comm.1 (he k k1 hk)]; decide
    · exact le_of_gt (hg k (by omega) k2)
  intro i j i1 i2 j1
  by_cases hj : j < a + t
  · exact h1 i j i1 i2 hj
  · by_cases hi : i < a + n - u
    · exact le_trans' (lv i i1 hi) (vg j (by omega) j1)
    · exact h2 i j (by omega) i2 j1

/-! ### The sort -/

omit [TransCmp cmp] in
theorem pivot_in (f : Nat → α) (a n : Nat) (hn : 7 ≤ n) : a ≤ pivot cmp f a n ∧ pivot cmp f a n < a + n := by
  have med : ∀ x y z, (a ≤ x ∧ x < a + n) → (a ≤ y ∧ y < a + n) → (a ≤ z ∧ z < a + n) → a ≤ med3 cmp f x y z ∧ med3 cmp f x y z < a + n := by
    intro x y z hx hy hz
    unfold med3
    split <;> (split; · assumption) <;> split <;> assumption
  unfold pivot
  simp only
  split
  · split
    · exact med _ _ _ (med _ _ _ (by omega) (by omega) (by omega)) (med _ _ _ (by omega) (by omega) (by omega)) (med _ _ _ (by omega) (by omega) (by omega))
    · exact med _ _ _ (by omega) (by omega) (by omega)
  · omega

/-- What the sort does. -/
structure Sorts1 (cmp : α → α → Ordering) (f g : Nat → α) (a n d : Nat) : Prop where
  re : Rearranged f g a (a + n)
  ord : InOrder cmp g a (a + n)
  depth : d = 0 ∨ 2 ^ d ≤ n

theorem qsort_ok (m : Nat) : ∀ (a n : Nat) (f : Nat → α), n ≤ m → Sorts1 cmp f (qsort cmp m a n f).1 a n (qsort cmp m a n f).2 := by
  induction m with
  | zero => intro a n f hn; exact ⟨.refl _ _ _, fun i j i1 i2 j1 => by omega, Or.inl rfl⟩
  | succ m ih =>
    intro a n f hn
    rw [qsort]
    split
    · next h7 =>
      by_cases h0 : n = 0
      · subst h0
        exact ⟨.refl _ _ _, fun i j i1 i2 j1 => by omega, Or.inl rfl⟩
      · obtain ⟨r1, r2⟩ := isort_ok (cmp := cmp) a (n - 1) (a + 1) f (by omega) (fun i j i1 i2 j1 => by omega)
        rw [show a + 1 + (n - 1) = a + n by omega] at r1 r2
        exact ⟨r1, r2, Or.inl rfl⟩
    · next h7 =>
      split
      · next hp =>
        have := presorted_ok (cmp := cmp) f a (n - 1) (a + 1) (by omega) (fun i j i1 i2 j1 => by omega) hp
        rw [show a + 1 + (n - 1) = a + n by omega] at this
        exact ⟨.refl _ _ _, this, Or.inl rfl⟩
      · simp only
        obtain ⟨v1, v2⟩ := pivot_in (cmp := cmp) f a n (by omega)
        have hswap : Rearranged f (swap f a (pivot cmp f a n)) a (a + n) := swap_rearranged f (Nat.le_refl _) (by omega) v1 v2
        generalize swap f a (pivot cmp f a n) = f0 at hswap
        obtain ⟨s1, s2⟩ := split_ok (cmp := cmp) (f0 := f0) (v := f0 a) (a := a) (n := n) n ⟨f0, a + 1, a + 1, a + (n - 1), a + (n - 1)⟩
          ⟨rfl, Nat.le_refl _, Nat.le_refl _, by simp only; omega, Nat.le_refl _, by simp only; omega, fun k k1 k2 => by simp only at k2; omega,
            fun k k1 k2 => by simp only at k1 k2; omega, fun k k1 k2 => by simp only at k1 k2; omega, fun k k1 k2 => by simp only at k1; omega, .refl _ _ _⟩
          (by simp only; omega)
        generalize split cmp a n ⟨f0, a + 1, a + 1, a + (n - 1), a + (n - 1)⟩ = p at s1 s2
        obtain ⟨t1, t2, t3⟩ := middle_ok s1 s2
        generalize middle a n p = f1 at t1 t2
        generalize p.pb - p.pa = t at t1 t3
        generalize p.pd - p.pc = u at t1 t3
        generalize f0 a = v at t1
        have hre : Rearranged f f1 a (a + n) := hswap.trans t2
        -- a part that may be too short to be sorted
        have part : ∀ (lo d : Nat) (g : Nat → α), d ≤ m → Sorts1 cmp g (if d > 1 then qsort cmp m lo d g else (g, 0)).1 lo d (if d > 1 then qsort cmp m lo d g else (g, 0)).2 := by
          intro lo d g hd
          split
          · exact ih lo d g hd
          · exact ⟨.refl _ _ _, fun i j i1 i2 j1 => by omega, Or.inl rfl⟩
        have part' : ∀ (lo d : Nat) (g : Nat → α), d ≤ m → ∃ r : (Nat → α) × Nat, (if d > 1 then (fun r : (Nat → α) × Nat => (r.1, r.2 + 1)) (qsort cmp m lo d g) else (g, 0)) = r ∧
            Rearranged g r.1 lo (lo + d) ∧ InOrder cmp r.1 lo (lo + d) ∧ (r.2 ≠ 0 → 2 ^ r.2 ≤ 2 * d) := by
          intro lo d g hd
          refine ⟨_, rfl, ?_⟩
          split
          · obtain ⟨r1, r2, r3⟩ := ih lo d g hd
            refine ⟨r1, r2, fun _ => ?_⟩
            simp only [pow_succ]
            rcases r3 with h | h
            · rw [h]; omega
            · omega
          · exact ⟨.refl _ _ _, fun i j i1 i2 j1 => by omega, fun h => absurd rfl h⟩
        have hpow : ∀ x y : Nat, (x ≠ 0 → 2 ^ x ≤ n) → (y = 0 ∨ 2 ^ y ≤ n) → max x y = 0 ∨ 2 ^ max x y ≤ n := by
          intro x y hx hy
          by_cases hxy : x ≤ y
          · rw [max_eq_right hxy]; exact hy
          · rw [max_eq_left (by omega)]; exact Or.inr (hx (by omega))
        split
        · next hle =>
          obtain ⟨r, hr, b1, b2, b3⟩ := part' a t f1 (by omega)
          rw [hr]
          obtain ⟨c1, c2, c3⟩ := part (a + n - u) u r.1 (by omega)
          generalize (if u > 1 then qsort cmp m (a + n - u) u r.1 else (r.1, 0)) = q at c1 c2 c3
          have hu : a + n - u + u = a + n := by omega
          rw [hu] at c1 c2
          have hT : Three cmp v a t u n q.1 := by
            refine ⟨fun k k1 k2 => ?_, fun k k1 k2 => ?_, c1.forall (P := fun x => cmp x v = .gt) (Nat.le_refl _) (Nat.le_refl _) (fun k k1 k2 => ?_)⟩
            · rw [c1.outside (by omega)]
              exact b1.forall (P := fun x => cmp x v = .lt) (Nat.le_refl _) (Nat.le_refl _) t1.lt k k1 k2
            · rw [c1.outside (by omega), b1.outside (by omega)]; exact t1.eq k k1 k2
            · rw [b1.outside (by omega)]; exact t1.gt k k1 k2
          refine ⟨(hre.trans (b1.mono (Nat.le_refl _) (by omega))).trans (c1.mono (by omega) (Nat.le_refl _)), hT.inOrder (fun i j i1 i2 j1 => ?_) c2, ?_⟩
          · rw [c1.outside (by omega), c1.outside (by omega)]; exact b2 i j i1 i2 j1
          · refine hpow _ _ (fun hx => by have := b3 hx; omega) ?_
            exact c3.imp id (fun h => by omega)
        · next hle =>
          obtain ⟨r, hr, b1, b2, b3⟩ := part' (a + n - u) u f1 (by omega)
          rw [hr]
          obtain ⟨c1, c2, c3⟩ := part a t r.1 (by omega)
          generalize (if t > 1 then qsort cmp m a t r.1 else (r.1, 0)) = q at c1 c2 c3
          have hu : a + n - u + u = a + n := by omega
          rw [hu] at b1 b2
          have hT : Three cmp v a t u n q.1 := by
            refine ⟨c1.forall (P := fun x => cmp x v = .lt) (Nat.le_refl _) (Nat.le_refl _) (fun k k1 k2 => ?_), fun k k1 k2 => ?_, fun k k1 k2 => ?_⟩
            · rw [b1.outside (by omega)]; exact t1.lt k k1 k2
            · rw [c1.outside (by omega), b1.outside (by omega)]; exact t1.eq k k1 k2
            · rw [c1.outside (by omega)]
              exact b1.forall (P := fun x => cmp x v = .gt) (Nat.le_refl _) (Nat.le_refl _) t1.gt k k1 k2
          refine ⟨(hre.trans (b1.mono (by omega) (Nat.le_refl _))).trans (c1.mono (Nat.le_refl _) (by omega)), hT.inOrder c2 (fun i j i1 i2 j1 => ?_), ?_⟩
          · rw [c1.outside (by omega), c1.outside (by omega)]; exact b2 i j i1 i2 j1
          · refine hpow _ _ (fun hx => by have := b3 hx; omega) ?_
            exact c3.imp id (fun h => by omega)
end

/-! ### Properties -/

section
variable [TransCmp cmp]

/-- **C76.** Sorting `n` tuples from position `a` on, for every array and every comparison that is a preorder: the tuples there are rearranged and in order; every other
position has what it had; and no more than log2 `n` calls are ever on the stack. -/
theorem C76_sort (a n : Nat) (f : Nat → α) :
    Rearranged f (qsort cmp n a n f).1 a (a + n) ∧ InOrder cmp (qsort cmp n a n f).1 a (a + n) ∧ (∀ k, ¬ (a ≤ k ∧ k < a + n) → (qsort cmp n a n f).1 k = f k) ∧
    (1 ≤ n → 2 ^ (qsort cmp n a n f).2 ≤ n) := by
  obtain ⟨h1, h2, h3⟩ := qsort_ok (cmp := cmp) n a n f (Nat.le_refl _)
  refine ⟨h1, h2, fun k hk => h1.outside hk, fun hn => ?_⟩
  rcases h3 with h | h
  · rw [h]; simpa using hn
  · exact h

/-- **C76 (lists).** The tuples of a sort in memory come out in order, each as often as it was put in. -/
theorem C76_list [Inhabited α] (l : List α) : (sortMem cmp l).Perm l ∧ (sortMem cmp l).Pairwise (fun x y => cmp x y ≠ .gt) := by
  unfold sortMem
  split
  · obtain ⟨h1, h2, -⟩ := C76_sort (cmp := cmp) 0 l.length (fun i => l.getD i default)
    rw [Nat.zero_add] at h1 h2
    generalize (qsort cmp l.length 0 l.length (fun i => l.getD i default)).1 = g at h1 h2
    refine ⟨h1.perm.trans (List.Perm.of_eq ?_), ?_⟩
    · refine List.ext_getElem (by simp) (fun i i1 i2 => ?_)
      simp [List.getD_eq_getElem?_getD, List.getElem?_eq_getElem i2]
    · rw [List.pairwise_map]
      exact List.pairwise_lt_range.imp_of_mem (fun hx hy hxy => h2 _ _ (Nat.zero_le _) hxy (List.mem_range.1 hy))
  · next h => exact ⟨.refl _, by
      match l, h with
      | [], _ => exact .nil
      | [x], _ => simp
      | x :: y :: l, h => simp at h⟩
end

instance : Inhabited (Item Datum) := ⟨⟨⟨0, 0⟩, none⟩⟩

/-- **C76 (what the other properties rely on).** It is a sort as C19, C49, C53, C54, C71 and C75 assume it. -/
theorem C76_sorts : Bulk.Sorts (fun cmp l => sortMem cmp l) := by
  intro cmp _ l
  exact ⟨(C76_list l).1, (C76_list l).2⟩

instance {F : Type} [Inhabited F] : Inhabited (Rum.Sort.SortItem F) := ⟨⟨⟨0, 0⟩, false, fun _ => default⟩⟩

/-- **C76 (ORDER BY).** The rows of an ORDER BY sort come out as C36 and C48 assume: a rearrangement without inversions for RUM's comparator, for every linear order of distances. -/
theorem C76_orderby {F : Type} [Inhabited F] {cmpF : F → F → Ordering} [TransCmp cmpF] (zero : F) (nKeys : Nat) (byTid : Bool) (inp : List (Rum.Sort.SortItem F)) :
    Rum.Sort.SortedBy (Rum.Sort.cmpSortItem cmpF zero nKeys byTid) inp (sortMem (Rum.Sort.cmpSortItem cmpF zero nKeys byTid) inp) := by
  have := Rum.Props.Sort.C36_comparator_transitive (cmpF := cmpF) zero nKeys byTid
  exact ⟨(C76_list inp).1, (C76_list inp).2⟩

/-! ### Concrete cases -/

/-- Nine tuples with repetitions: one partition, its parts by insertion sort. -/
example : sortMem (α := Nat) compare [5, 3, 9, 5, 1, 5, 8, 0, 5] = [0, 1, 3, 5, 5, 5, 5, 8, 9] := by decide +kernel

/-- Sixty tuples: the pivot is a median of medians, calls are nested. -/
theorem C76_witness : sortMem (α := Nat) compare ((List.range 60).map (fun i => i * 37 % 61)) = (List.range 61).filter (fun i => decide (i ≠ 24)) ∧
    (qsort (α := Nat) compare 60 0 60 (fun i => i * 37 % 61)).2 = 3 ∧
    presorted (α := Nat) compare (fun i => i * 37 % 61) 59 1 = false := by decide +kernel

end Rum.Props.QSort
