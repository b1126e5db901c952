import Verif.BalSort
import Verif.Props.TapeSort
/-!
# C77: the sort on tapes sorts, version 15

The balanced merge: whatever the tuples are and however memory divides them into portions, all tuples come back, in order.
-/
namespace Rum.Props.BalSort
open Rum Rum.QSort Rum.TapeSort Rum.BalSort Rum.Props.QSort Rum.Props.TapeSort Std

/-! ### How many runs are on a tape -/

/-- The number of runs on tape `t` when `n` runs have been dealt to `T` tapes in turn. -/
def cnt (T n t : Nat) : Nat := (n + (T - 1 - t)) / T

theorem div_one {a M : Nat} (h1 : M ≤ a) (h2 : a < 2 * M) : a / M = 1 := Nat.div_eq_of_lt_le (by omega) (by omega)

theorem cnt_succ {M t : Nat} (c : Nat) (ht : t < M) : cnt M (c + 1) t = cnt M c t + if t = c % M then 1 else 0 := by
  unfold cnt
  have hd := Nat.div_add_mod c M
  have hr : c % M < M := Nat.mod_lt _ (by omega)
  generalize c / M = q at hd
  generalize c % M = r at hd hr
  subst hd
  rw [show M * q + r + 1 + (M - 1 - t) = M * q + (r + 1 + (M - 1 - t)) by omega, show M * q + r + (M - 1 - t) = M * q + (r + (M - 1 - t)) by omega,
    Nat.mul_add_div (by omega), Nat.mul_add_div (by omega), Nat.add_assoc q]
  congr 1
  rcases Nat.lt_trichotomy t r with h | h | h
  · rw [if_neg (by omega), div_one (by omega) (by omega), div_one (by omega) (by omega)]
  · rw [if_pos h, div_one (by omega) (by omega), Nat.div_eq_of_lt (by omega)]
  · rw [if_neg (by omega), Nat.div_eq_of_lt (by omega), Nat.div_eq_of_lt (by omega)]

theorem cnt_zero (T t : Nat) : cnt T 0 t = 0 := by
  unfold cnt
  rcases Nat.eq_zero_or_pos T with rfl | h
  · rw [Nat.div_zero]
  · exact Nat.div_eq_of_lt (by omega)

theorem cnt_few {T n t : Nat} (ht : t < T) (hn : n ≤ T) : cnt T n t = if t < n then 1 else 0 := by
  unfold cnt
  split
  · exact div_one (by omega) (by omega)
  · exact Nat.div_eq_of_lt (by omega)

theorem cnt_merge {T n t : Nat} (ht : t < T) : cnt T n t = cnt T (n - min T n) t + if t < min T n then 1 else 0 := by
  rcases Nat.le_total T n with h | h
  · rw [Nat.min_eq_left h, if_pos ht]
    unfold cnt
    rw [show n + (T - 1 - t) = (n - T + (T - 1 - t)) + T by omega, Nat.add_div_right _ (by omega)]
  · rw [Nat.min_eq_right h, Nat.sub_self, cnt_zero, Nat.zero_add, cnt_few ht h]

theorem cnt_pass {M c t : Nat} (ht : t < min c M) : cnt (min c M) c t = cnt M c t := by
  rcases Nat.le_total c M with h | h
  · rw [Nat.min_eq_left h] at ht ⊢
    rw [cnt_few ht (Nat.le_refl _), cnt_few (by omega) h]
  · rw [Nat.min_eq_right h]

theorem cnt_le {T n : Nat} (hT : 1 ≤ T) (_ : 1 ≤ n) : cnt T n 0 ≤ n := by
  unfold cnt
  rw [Nat.div_le_iff_le_mul_add_pred hT]
  have : 1 * n ≤ T * n := Nat.mul_le_mul_right n hT
  omega

theorem cnt_half {T n : Nat} (hT : 2 ≤ T) (hn : 1 ≤ n) : cnt T n 0 ≤ (n + 1) / 2 := by
  unfold cnt
  rw [show n + (T - 1 - 0) = (n - 1) + T by omega, Nat.add_div_right _ (by omega), show n + 1 = (n - 1) + 2 by omega, Nat.add_div_right _ (by omega)]
  exact Nat.succ_le_succ (Nat.div_le_div_left hT (by omega))

/-! ### The tapes -/

section
variable {α : Type} {cmp : α → α → Ordering} [TransCmp cmp]

/-- What is on the tapes when `n` runs are to be read from `T` tapes and `c` runs have been written to at most `M`. -/
structure Core (cmp : α → α → Ordering) (M T n c : Nat) (total : Multiset α) (s : Tapes15 α) : Prop where
  nIn : s.nIn = T
  inRuns : s.inRuns = n
  inLen : ∀ t, t < T → (s.inp t).length = cnt T n t
  inGood : ∀ t, ∀ r ∈ s.inp t, Ordered cmp r ∧ r ≠ []
  outLen : ∀ t, t < M → (s.out t).length = cnt M c t
  outNil : ∀ t, M ≤ t → s.out t = []
  outGood : ∀ t, ∀ r ∈ s.out t, Ordered cmp r ∧ r ≠ []
  total : onRuns T (fun t => (s.inp t).flatten) + onRuns M (fun t => (s.out t).flatten) = total

/-- After a run was written, or before the first one. -/
structure Wrote (cmp : α → α → Ordering) (M T n c : Nat) (total : Multiset α) (s : Tapes15 α) : Prop extends Core cmp M T n c total s where
  nOut : s.nOut = min c M
  outRuns : s.outRuns = c

/-- The tape for the next run has been chosen. -/
structure Chosen (cmp : α → α → Ordering) (M T n c : Nat) (total : Multiset α) (s : Tapes15 α) : Prop extends Core cmp M T n c total s where
  nOut : s.nOut = min (c + 1) M
  outRuns : s.outRuns = c + 1
  dest : s.dest = c % M

omit [TransCmp cmp] in
theorem select_ok {M T n c : Nat} {total : Multiset α} {s : Tapes15 α} (h : Wrote cmp M T n c total s) (hs : c < M → c < s.size) :
    ∃ s', BalSort.selectNewTape M s = some s' ∧ Chosen cmp M T n c total s' ∧ s'.current = s.current ∧ s'.size = s.size := by
  unfold BalSort.selectNewTape
  rw [h.nOut, h.outRuns]
  by_cases hc : c < M
  · have hz := hs hc
    rw [Nat.min_eq_left (Nat.le_of_lt hc), if_pos hc, if_neg (by omega)]
    have hn : s.out c = [] := List.eq_nil_of_length_eq_zero (by rw [h.outLen c hc, cnt_few hc (Nat.le_of_lt hc), if_neg (by omega)])
    have hp : put s.out c [] = s.out := by
      funext t
      by_cases ht : t = c
      · subst ht; rw [put_eq, hn]
      · rw [put_ne _ _ ht]
    refine ⟨_, rfl, ⟨⟨h.nIn, h.inRuns, h.inLen, h.inGood, ?_, ?_, ?_, ?_⟩, ?_, rfl, (Nat.mod_eq_of_lt hc).symm⟩, rfl, rfl⟩
    · simp only [hp]; exact h.outLen
    · simp only [hp]; exact h.outNil
    · simp only [hp]; exact h.outGood
    · simp only [hp]; exact h.total
    · simp only; omega
  · rw [Nat.min_eq_right (by omega), if_neg (by omega)]
    refine ⟨_, rfl, ⟨⟨h.nIn, h.inRuns, h.inLen, h.inGood, h.outLen, h.outNil, h.outGood, h.total⟩, ?_, rfl, rfl⟩, rfl, rfl⟩
    simp only; omega

omit [TransCmp cmp] in
theorem write_ok {M T n c : Nat} (hM : 1 ≤ M) {total : Multiset α} {s : Tapes15 α} (h : Chosen cmp M T n c total s) {run : List α} (h1 : Ordered cmp run) (h2 : run ≠ []) :
    Wrote cmp M T n (c + 1) ((run : Multiset α) + total) (writeRun s run) := by
  have hd : c % M < M := Nat.mod_lt _ (by omega)
  have hw (t : Nat) : (writeRun s run).out t = if t = c % M then s.out t ++ [run] else s.out t := by
    show put s.out s.dest (s.out s.dest ++ [run]) t = _
    rw [h.dest]
    split
    · next ht => subst ht; rw [put_eq]
    · next ht => rw [put_ne _ _ ht]
  refine ⟨⟨h.nIn, h.inRuns, h.inLen, h.inGood, fun t ht => ?_, fun t ht => ?_, fun t r hr => ?_, ?_⟩, h.nOut, h.outRuns⟩
  · rw [hw, cnt_succ c ht]
    split
    · rw [List.length_append, h.outLen t ht]; rfl
    · rw [h.outLen t ht]; rfl
  · rw [hw, if_neg (by omega)]; exact h.outNil t ht
  · rw [hw] at hr
    split at hr
    · rcases List.mem_append.1 hr with hr | hr
      · exact h.outGood t r hr
      · rw [List.mem_singleton.1 hr]; exact ⟨h1, h2⟩
    · exact h.outGood t r hr
  · have e := onRuns_put hd (fun t => (s.out t).flatten) ((s.out (c % M)).flatten ++ run)
    have e2 : put (fun t => (s.out t).flatten) (c % M) ((s.out (c % M)).flatten ++ run) = fun t => ((writeRun s run).out t).flatten := by
      funext t
      rw [hw]
      split
      · next ht => subst ht; rw [put_eq, List.flatten_append]; simp
      · next ht => rw [put_ne _ _ ht]
    rw [e2, ← Multiset.coe_add, add_assoc] at e
    have e3 := add_left_cancel e
    show onRuns T (fun t => (s.inp t).flatten) + _ = _
    rw [← e3, ← h.total]
    exact add_left_comm _ _ _

/-! ### Making the runs -/

omit [TransCmp cmp] in
theorem dump_first {memSort : List α → List α} (hs : ∀ l, Ordered cmp (memSort l) ∧ (memSort l).Perm l) {M c : Nat} (hM : 1 ≤ M) {total : Multiset α} {s : Tapes15 α}
    (h : Chosen cmp M 0 0 c total s) {mem : List α} (hm : mem ≠ []) (k : Nat) :
    Wrote cmp M 0 0 (c + 1) (total + (mem : Multiset α)) { writeRun s (memSort mem) with current := k } := by
  have := write_ok hM h (hs mem).1 (fun e => hm (List.eq_nil_of_length_eq_zero (by rw [← (hs mem).2.length_eq, e]; rfl)))
  rw [Multiset.coe_eq_coe.2 (hs mem).2, add_comm (mem : Multiset α)] at this
  exact ⟨⟨this.nIn, this.inRuns, this.inLen, this.inGood, this.outLen, this.outNil, this.outGood, this.total⟩, this.nOut, this.outRuns⟩

omit [TransCmp cmp] in
theorem dump_ok {memSort : List α → List α} (hs : ∀ l, Ordered cmp (memSort l) ∧ (memSort l).Perm l) {M c : Nat} (hM : 1 ≤ M) {total : Multiset α} {s : Tapes15 α}
    (h : Wrote cmp M 0 0 c total s) (hc : 0 < s.current) (hz : s.size = M) (mem : List α) :
    ∃ s' c', BalSort.dumpTuples memSort M s mem = some s' ∧ Wrote cmp M 0 0 c' (total + (mem : Multiset α)) s' ∧ 0 < s'.current ∧ s'.size = M ∧ c ≤ c' := by
  unfold BalSort.dumpTuples
  by_cases hm : mem = []
  · subst hm
    rw [if_pos ⟨rfl, hc⟩]
    exact ⟨s, c, rfl, by rw [Multiset.coe_nil, add_zero]; exact h, hc, hz, Nat.le_refl _⟩
  · rw [if_neg (by simp [hm]), if_pos hc]
    obtain ⟨s1, e1, h1, h2, h3⟩ := select_ok h (fun hc => by omega)
    rw [e1]
    exact ⟨_, c + 1, rfl, dump_first hs hM h1 hm _, Nat.succ_pos _, h3.trans hz, Nat.le_succ _⟩

omit [TransCmp cmp] in
theorem makeRuns_ok {memSort : List α → List α} (hs : ∀ l, Ordered cmp (memSort l) ∧ (memSort l).Perm l) {M : Nat} (hM : 1 ≤ M) (full : List (List α)) :
    ∀ (s : Tapes15 α) (c : Nat) (total : Multiset α), Wrote cmp M 0 0 c total s → 0 < s.current → s.size = M →
    ∃ s' c', BalSort.makeRuns memSort M full s = some s' ∧ Wrote cmp M 0 0 c' (total + (full.flatten : Multiset α)) s' ∧ 0 < s'.current ∧ s'.size = M ∧ c ≤ c' := by
  induction full with
  | nil => intro s c total h h1 h2; exact ⟨s, c, rfl, by rw [List.flatten_nil, Multiset.coe_nil, add_zero]; exact h, h1, h2, Nat.le_refl _⟩
  | cons mem ms ih =>
    intro s c total h h1 h2
    rw [BalSort.makeRuns]
    obtain ⟨s1, c1, e1, g1, g2, g3, g4⟩ := dump_ok hs hM h h1 h2 mem
    rw [e1]
    simp only
    obtain ⟨s2, c2, e2, k1, k2, k3, k4⟩ := ih s1 c1 _ g1 g2 g3
    exact ⟨s2, c2, e2, by rw [List.flatten_cons, ← Multiset.coe_add, ← add_assoc]; exact k1, k2, k3, by omega⟩

/-! ### The merge -/

omit [TransCmp cmp] in
theorem cur_eq {M T n c : Nat} {total : Multiset α} {s : Tapes15 α} (h : Core cmp M T n c total s) (t : Nat) :
    BalSort.cur s t = if t < min T n then (s.inp t).headD [] else [] := by
  unfold BalSort.cur BalSort.active
  rw [h.nIn, h.inRuns]

omit [TransCmp cmp] in
theorem cur_good {M T n c : Nat} {total : Multiset α} {s : Tapes15 α} (h : Core cmp M T n c total s) (t : Nat) :
    Ordered cmp (BalSort.cur s t) ∧ (t < min T n → BalSort.cur s t ≠ [] ∧ s.inp t = BalSort.cur s t :: (s.inp t).tail) := by
  rw [cur_eq h]
  split
  · next ht =>
    have hl := h.inLen t (by omega)
    rw [cnt_merge (by omega), if_pos ht] at hl
    cases hi : s.inp t with
    | nil => rw [hi] at hl; cases hl
    | cons r rs =>
      have := h.inGood t r (by rw [hi]; exact List.mem_cons_self)
      exact ⟨this.1, fun _ => ⟨this.2, rfl⟩⟩
  · next ht => exact ⟨.nil, fun h => absurd h ht⟩

/-- The input tapes after a merge. -/
def rests (s : Tapes15 α) (t : Nat) : List (List α) := if t < BalSort.active s then (s.inp t).tail else s.inp t

omit [TransCmp cmp] in
theorem onRuns_add (T : Nat) (f g h : Nat → List α) (e : ∀ t, t < T → (f t : Multiset α) = (g t : Multiset α) + (h t : Multiset α)) : onRuns T f = onRuns T g + onRuns T h := by
  unfold onRuns
  rw [← Finset.sum_add_distrib]
  exact Finset.sum_congr rfl (fun t ht => e t (Finset.mem_range.1 ht))

theorem merged {M T n c : Nat} [Inhabited α] {total : Multiset α} {s : Tapes15 α} (h : Core cmp M T n c total s) (hn : 0 < n) (hT : 0 < T) :
    Ordered cmp (mergeAll cmp (BalSort.active s) (BalSort.cur s)) ∧ mergeAll cmp (BalSort.active s) (BalSort.cur s) ≠ [] ∧
    ((mergeAll cmp (BalSort.active s) (BalSort.cur s) : List α) : Multiset α) + onRuns T (fun t => (rests s t).flatten) = onRuns T (fun t => (s.inp t).flatten) := by
  have ha : BalSort.active s = min T n := by unfold BalSort.active; rw [h.nIn, h.inRuns]
  obtain ⟨m1, m2⟩ := mergeAll_ok (cmp := cmp) (BalSort.active s) (BalSort.cur s) (fun t => (cur_good h t).1)
  have hall : onRuns (BalSort.active s) (BalSort.cur s) = onRuns T (BalSort.cur s) := by
    unfold onRuns
    refine Finset.sum_subset (fun t ht => ?_) (fun t ht1 ht2 => ?_)
    · rw [Finset.mem_range] at ht ⊢; omega
    · rw [Finset.mem_range, ha] at ht2
      rw [cur_eq h, if_neg ht2]; rfl
  have hsum := onRuns_add T (fun t => (s.inp t).flatten) (BalSort.cur s) (fun t => (rests s t).flatten) (fun t ht => by
    unfold rests
    rw [ha]
    split
    · next hlt =>
      conv => lhs; rw [((cur_good h t).2 hlt).2]
      rw [List.flatten_cons, Multiset.coe_add]
    · next hlt => rw [cur_eq h, if_neg hlt, Multiset.coe_nil, zero_add])
  refine ⟨m1, fun he => ?_, by rw [m2, hall, hsum]⟩
  rw [he, Multiset.coe_nil] at m2
  have h0 : ((BalSort.cur s 0 : List α) : Multiset α) ≤ onRuns (BalSort.active s) (BalSort.cur s) :=
    Finset.single_le_sum (f := fun t => ((BalSort.cur s t : List α) : Multiset α)) (fun _ _ => Multiset.zero_le _) (Finset.mem_range.2 (by omega))
  rw [← m2, Multiset.le_zero] at h0
  exact ((cur_good h 0).2 (by omega)).1 (by simpa using h0)

theorem merge_ok {M T n c : Nat} [Inhabited α] (hM : 1 ≤ M) {total : Multiset α} {s : Tapes15 α} (h : Chosen cmp M T n c total s) (hn : 0 < n) (hT : 0 < T) :
    Wrote cmp M T (n - min T n) (c + 1) total (BalSort.mergeOneRun cmp s) := by
  have ha : BalSort.active s = min T n := by unfold BalSort.active; rw [h.nIn, h.inRuns]
  obtain ⟨m1, m2, m3⟩ := merged h.toCore hn hT
  have hcount : ((List.range (BalSort.active s)).filter (fun t => !(BalSort.cur s t).isEmpty)).length = min T n := by
    rw [List.filter_eq_self.2 (fun t ht => ?_), List.length_range, ha]
    have := ((cur_good h.toCore t).2 (by rw [← ha]; exact List.mem_range.1 ht)).1
    cases hc : BalSort.cur s t with
    | nil => exact absurd hc this
    | cons => rfl
  have hl := h.total
  rw [← m3, add_assoc] at hl
  have hmid : Chosen cmp M T (n - min T n) c (onRuns T (fun t => (rests s t).flatten) + onRuns M (fun t => (s.out t).flatten))
      { s with inp := rests s, inRuns := s.inRuns - ((List.range (BalSort.active s)).filter (fun t => !(BalSort.cur s t).isEmpty)).length } := by
    refine ⟨⟨h.nIn, by rw [hcount, h.inRuns], fun t ht => ?_, fun t r hr => ?_, h.outLen, h.outNil, h.outGood, rfl⟩, h.nOut, h.outRuns, h.dest⟩
    · have h1 := h.inLen t ht
      rw [cnt_merge ht] at h1
      show (rests s t).length = _
      unfold rests
      rw [ha]
      split
      · next hlt => rw [if_pos hlt] at h1; rw [List.length_tail, h1]; rfl
      · next hlt => rw [if_neg hlt] at h1; exact h1
    · refine h.inGood t r ?_
      unfold rests at hr
      simp only at hr
      split at hr
      · exact List.mem_of_mem_tail hr
      · exact hr
  have := write_ok hM hmid m1 m2
  rw [hl] at this
  exact this

omit [TransCmp cmp] in
/-- A new pass: what was written is to be read. -/
theorem pass_ok {M T c : Nat} {total : Multiset α} {s : Tapes15 α} (h : Wrote cmp M T 0 c total s) : Wrote cmp M (min c M) c 0 total (newPass s) := by
  have hin : onRuns T (fun t => (s.inp t).flatten) = 0 := by
    unfold onRuns
    refine Finset.sum_eq_zero (fun t ht => ?_)
    have := h.inLen t (Finset.mem_range.1 ht)
    rw [cnt_zero] at this
    simp only [List.eq_nil_of_length_eq_zero this, List.flatten_nil, Multiset.coe_nil]
  have hz : ∀ t, t < M → ¬ t < min c M → s.out t = [] := fun t ht ht2 => by
    refine List.eq_nil_of_length_eq_zero ?_
    rw [h.outLen t ht, cnt_few ht (by omega), if_neg (by omega)]
  refine ⟨⟨h.nOut, h.outRuns, fun t ht => ?_, h.outGood, fun t _ => (cnt_zero M t).symm, fun t _ => rfl, fun t r hr => (by cases hr), ?_⟩, (Nat.zero_min M).symm, rfl⟩
  · rw [cnt_pass ht]; exact h.outLen t (by omega)
  · have h1 := h.total
    rw [hin, zero_add] at h1
    rw [← h1]
    have h2 : onRuns M (fun t => ((newPass s).out t).flatten) = 0 := Finset.sum_eq_zero (fun t _ => rfl)
    rw [h2, add_zero]
    unfold onRuns
    refine Finset.sum_subset (fun t ht => ?_) (fun t ht1 ht2 => ?_)
    · rw [Finset.mem_range] at ht ⊢; omega
    · show (((s.out t).flatten : List α) : Multiset α) = 0
      rw [hz t (Finset.mem_range.1 ht1) (fun h => ht2 (Finset.mem_range.2 h))]; rfl

/-- The rounds that are enough. -/
def need (c r : Nat) : Nat := r + if c + r ≤ 1 then 0 else 2 * (c + r)

theorem mergeRuns_ok [Inhabited α] {M room : Nat} (hM : 2 ≤ M) (ra : Bool) {total : Multiset α} (m : Nat) : ∀ (s : Tapes15 α) (T n c : Nat), Wrote cmp M T n c total s →
    (0 < n → 0 < T ∧ T ≤ room ∧ (s.size = M ∨ (n ≤ T ∧ c < s.size)) ∧ need c (cnt T n 0) ≤ m) → (n = 0 → 1 ≤ c ∧ 2 * c ≤ m) → min (c + cnt T n 0) M ≤ room →
    ∃ out, BalSort.mergeRuns cmp ra M room m s = some out ∧ Ordered cmp out ∧ (out : Multiset α) = total := by
  induction m with
  | zero =>
    intro s T n c h h1 h2 _
    exfalso
    rcases Nat.eq_zero_or_pos n with hn | hn
    · have := h2 hn; omega
    · obtain ⟨hT, _, _, h3⟩ := h1 hn
      have : cnt T n 0 ≠ 0 := by
        have := cnt_merge (T := T) (n := n) hT
        rw [if_pos (by omega)] at this; omega
      unfold need at h3; omega
  | succ m ih =>
    have body (s1 : Tapes15 α) (T n c : Nat) (h : Wrote cmp M T n c total s1) (hn : 0 < n) (hT : 0 < T) (hr : T ≤ room) (hz : s1.size = M ∨ (n ≤ T ∧ c < s1.size))
        (hf : need c (cnt T n 0) ≤ m + 1) (hro : min (c + cnt T n 0) M ≤ room) :
        ∃ out, (match BalSort.selectNewTape M s1 with
          | none => none
          | some s2 =>
            let s3 := BalSort.mergeOneRun cmp s2
            if s3.inRuns = 0 ∧ s3.outRuns ≤ 1 then some ((s3.out 0).headD [])
            else BalSort.mergeRuns cmp ra M room m s3) = some out ∧ Ordered cmp out ∧ (out : Multiset α) = total := by
      obtain ⟨s2, e2, g2, _, z2⟩ := select_ok h (fun hc => by rcases hz with hz | hz <;> omega)
      rw [e2]
      simp only
      have g3 := merge_ok (by omega) g2 hn hT
      have hcnt := cnt_merge (T := T) (n := n) (t := 0) hT
      rw [if_pos (by omega)] at hcnt
      have z3 : (BalSort.mergeOneRun cmp s2).size = s2.size := rfl
      generalize BalSort.mergeOneRun cmp s2 = s3 at g3 z3
      have hro2 : min (c + 1 + cnt T (n - min T n) 0) M ≤ room := by
        rw [show c + 1 + cnt T (n - min T n) 0 = c + cnt T n 0 by omega]; exact hro
      split
      · next hfin =>
        obtain ⟨f1, f2⟩ := hfin
        rw [g3.inRuns] at f1
        rw [g3.outRuns] at f2
        obtain rfl : c = 0 := by omega
        have hl := g3.outLen 0 (by omega)
        rw [cnt_few (by omega) (by omega), if_pos (by omega)] at hl
        obtain ⟨r, hr1⟩ := List.length_eq_one_iff.1 hl
        rw [hr1]
        refine ⟨r, rfl, (g3.outGood 0 r (by rw [hr1]; exact List.mem_singleton.2 rfl)).1, ?_⟩
        have ht := g3.total
        have hin : onRuns T (fun t => (s3.inp t).flatten) = 0 := by
          unfold onRuns
          refine Finset.sum_eq_zero (fun t ht => ?_)
          have := g3.inLen t (Finset.mem_range.1 ht)
          rw [f1, cnt_zero] at this
          simp only [List.eq_nil_of_length_eq_zero this, List.flatten_nil, Multiset.coe_nil]
        have hout : onRuns M (fun t => (s3.out t).flatten) = (r : Multiset α) := by
          unfold onRuns
          rw [Finset.sum_eq_single_of_mem 0 (Finset.mem_range.2 (by omega)) (fun t ht h0 => ?_)]
          · simp [hr1]
          · have := g3.outLen t (Finset.mem_range.1 ht)
            rw [cnt_few (Finset.mem_range.1 ht) (by omega), if_neg (by omega)] at this
            simp only [List.eq_nil_of_length_eq_zero this, List.flatten_nil, Multiset.coe_nil]
        rw [hin, hout, zero_add] at ht
        exact ht
      · next hfin =>
        rw [g3.inRuns, g3.outRuns] at hfin
        refine ih s3 T (n - min T n) (c + 1) g3 (fun hn' => ⟨hT, hr, .inl ?_, ?_⟩) (fun hn' => ?_) hro2
        · rw [z3, z2]; omega
        · unfold need at hf ⊢
          rw [if_neg (by
            have := cnt_merge (T := T) (n := n - min T n) (t := 0) hT
            rw [if_pos (by omega)] at this; omega)] at hf ⊢
          omega
        · rw [hn', cnt_zero] at hcnt
          unfold need at hf
          rw [if_neg (by omega)] at hf
          omega
    intro s T n c h h1 h2 hro
    rw [BalSort.mergeRuns]
    simp only
    rw [h.inRuns]
    rcases Nat.eq_zero_or_pos n with hn | hn
    · subst hn
      obtain ⟨hc, hf⟩ := h2 rfl
      simp only [if_true, true_and]
      have g := pass_ok h
      rw [cnt_zero, Nat.add_zero] at hro
      have ha : BalSort.active (newPass s) = min (min c M) c := by unfold BalSort.active; rw [g.nIn, g.inRuns]
      rw [if_neg (by omega)]
      split
      · next hfin =>
        rw [g.inRuns, g.nIn] at hfin
        obtain ⟨m1, _, m3⟩ := merged g.toCore hc (by omega)
        refine ⟨_, rfl, m1, ?_⟩
        have hrest : onRuns (min c M) (fun t => (rests (newPass s) t).flatten) = 0 := by
          unfold onRuns
          refine Finset.sum_eq_zero (fun t ht => ?_)
          have ht := Finset.mem_range.1 ht
          have hl := g.inLen t ht
          rw [cnt_few ht hfin.2, if_pos (by omega)] at hl
          unfold rests
          obtain ⟨r, hr1⟩ := List.length_eq_one_iff.1 hl
          simp only
          rw [if_pos (by omega), hr1]; rfl
        have ht := g.total
        rw [hrest, add_zero] at m3
        have hout : onRuns M (fun t => ((newPass s).out t).flatten) = 0 := Finset.sum_eq_zero (fun t _ => rfl)
        rw [← m3, hout, add_zero] at ht
        exact ht
      · have hle : cnt (min c M) c 0 ≤ c := cnt_le (by omega) hc
        refine body (newPass s) (min c M) c 0 g hc (by omega) hro ?_ ?_ ?_
        · show s.nOut = M ∨ (_ ∧ 0 < s.nOut)
          rw [h.nOut]; omega
        · unfold need
          rw [Nat.zero_add]
          split
          · omega
          · next hgt =>
            have : 2 ≤ c := by omega
            have := cnt_half (T := min c M) (n := c) (by omega) hc
            have : cnt (min c M) c 0 ≠ 2 ∨ 3 ≤ c := by
              by_contra hcon
              obtain rfl : c = 2 := by omega
              rw [Nat.min_eq_left (by omega), cnt_few (by omega) (by omega)] at hgt
              simp at hgt
            omega
        · rw [Nat.zero_add]; omega
    · have h0 : n ≠ 0 := by omega
      simp only [h0, if_false, false_and]
      obtain ⟨hT, hr, hz, hf⟩ := h1 hn
      have ha : BalSort.active s = min T n := by unfold BalSort.active; rw [h.nIn, h.inRuns]
      rw [if_neg (by omega)]
      exact body s T n c h hn hT hr hz hf hro

/-- **C77 (version 15).** A sort that does not fit in memory, for every division of the input into portions (those with which memory was filled are not empty), every number of tapes from two on,
and every comparison that is a total preorder, whatever sorts the portions in memory, whether the result is put on a tape or merged while it is fetched: it ends, no assertion fails, no
array of tapes and no heap is exceeded, and the tuples come out in order, each as often as it was put in. -/
theorem C77_balanced [Inhabited α] {memSort : List α → List α} (hs : ∀ l, (memSort l).Perm l ∧ (memSort l).Pairwise (fun x y => cmp x y ≠ .gt)) (ra : Bool) (M : Nat) (hM : 2 ≤ M)
    (full : List (List α)) (hfull : full ≠ []) (hne : ∀ mem ∈ full, mem ≠ []) (last : List α) :
    ∃ out, BalSort.tapeSort cmp memSort ra M full last = some out ∧ out.Perm (full.flatten ++ last) ∧ out.Pairwise (fun x y => cmp x y ≠ .gt) := by
  have hs' : ∀ l, Ordered cmp (memSort l) ∧ (memSort l).Perm l := fun l => ⟨(hs l).2, (hs l).1⟩
  cases full with
  | nil => exact absurd rfl hfull
  | cons mem ms =>
    unfold BalSort.tapeSort BalSort.initTapes
    have h0 : Wrote cmp M 0 0 0 0 ({ inp := fun _ => [], nIn := 0, inRuns := 0, out := fun _ => [], size := M, nOut := 0, outRuns := 0, dest := 0, current := 0 } : Tapes15 α) :=
      ⟨⟨rfl, rfl, fun t ht => (by omega), fun t r hr => (by cases hr), fun t _ => (cnt_zero M t).symm, fun t _ => rfl, fun t r hr => (by cases hr), by
        unfold onRuns; rw [Finset.sum_range_zero, zero_add]; exact Finset.sum_eq_zero (fun t _ => rfl)⟩, (Nat.zero_min M).symm, rfl⟩
    obtain ⟨s0, e0, g0, c0, z0⟩ := select_ok h0 (fun _ => by show 0 < M; omega)
    rw [e0]
    simp only
    rw [BalSort.makeRuns, BalSort.dumpTuples]
    have hm := hne mem List.mem_cons_self
    have c0 : s0.current = 0 := c0
    rw [if_neg (by rw [c0]; simp), if_neg (by omega)]
    simp only
    have g1 := dump_first hs' (by omega) g0 hm (s0.current + 1)
    obtain ⟨s1, c1, e1, h1, h2, h3, h4⟩ := makeRuns_ok hs' (by omega) ms _ 1 _ g1 (Nat.succ_pos _) z0
    rw [e1]
    simp only
    obtain ⟨s2, c2, e2, k1, k2, k3, k4⟩ := dump_ok hs' (by omega) h1 h2 h3 last
    rw [e2]
    simp only
    obtain ⟨out, e3, o1, o2⟩ := mergeRuns_ok hM ra (room := s2.nOut) (2 * s2.outRuns) s2 0 0 c2 k1 (fun h => by omega) (fun _ => by rw [k1.outRuns]; omega) (by
      rw [cnt_zero, k1.nOut]; omega)
    refine ⟨out, e3, Multiset.coe_eq_coe.1 ?_, o1⟩
    rw [o2, List.flatten_cons, zero_add, Multiset.coe_add, Multiset.coe_add]

end

/-- **C77 (version 15, ORDER BY).** -/
theorem C77_balanced_orderby {F : Type} [Inhabited F] {cmpF : F → F → Ordering} [TransCmp cmpF] (zero : F) (nKeys : Nat) (byTid : Bool) (ra : Bool) (M : Nat) (hM : 2 ≤ M)
    {memSort : List (Rum.Sort.SortItem F) → List (Rum.Sort.SortItem F)} (hs : ∀ l, Rum.Sort.SortedBy (Rum.Sort.cmpSortItem cmpF zero nKeys byTid) l (memSort l))
    (full : List (List (Rum.Sort.SortItem F))) (hfull : full ≠ []) (hne : ∀ mem ∈ full, mem ≠ []) (last : List (Rum.Sort.SortItem F)) :
    ∃ out, BalSort.tapeSort (Rum.Sort.cmpSortItem cmpF zero nKeys byTid) memSort ra M full last = some out ∧
      Rum.Sort.SortedBy (Rum.Sort.cmpSortItem cmpF zero nKeys byTid) (full.flatten ++ last) out := by
  have := Rum.Props.Sort.C36_comparator_transitive (cmpF := cmpF) zero nKeys byTid
  obtain ⟨out, h1, h2, h3⟩ := C77_balanced (cmp := Rum.Sort.cmpSortItem cmpF zero nKeys byTid) (memSort := memSort) (fun l => ⟨(hs l).1, (hs l).2⟩) ra M hM full hfull hne last
  exact ⟨out, h1, h2, h3⟩

/-- Two tapes, nine portions and a rest: four passes (ten, five, three, two runs), both ways to fetch the result. -/
theorem C77_balanced_witness : ∀ ra : Bool, BalSort.tapeSort (α := Nat) compare (sortMem compare) ra 2 [[5, 1], [7, 7], [2, 9], [4, 0], [8, 3], [6, 6], [1, 1], [10, 2], [5, 5]] [3] =
    some [0, 1, 1, 1, 2, 2, 3, 3, 4, 5, 5, 5, 6, 6, 7, 7, 8, 9, 10] := by decide +kernel

/-- The hypothesis on the portions is needed: a run without tuples is never counted as read, and the merge does not end. (No such run is made: a portion ends when a tuple has been put.) -/
theorem C77_balanced_empty_run : BalSort.tapeSort (α := Nat) compare (sortMem compare) true 2 [[]] [3] = none := by decide +kernel

end Rum.Props.BalSort
