import Mathlib.Tactic.Set
import Verif.ScanPageLemmas
import Verif.Props.Split
/-
Property theorems C22: loading a leaf page into a scan.
-/
namespace Rum.Props
open Rum Rum.Codec Rum.Leaf Std

/-- `it` is what a scan looks for: beyond `s` in the scan direction, or equal to it when that is allowed. -/
def AtOrBeyond (x : Ctx) (fwd eqOk : Bool) (s it : Item Datum) : Prop :=
  (x.cmp it s = if fwd then .gt else .lt) ∨ (eqOk = true ∧ x.cmp it s = .eq)

/-! ### Helpers -/

theorem minItem_before (x : Ctx) (s : Item Datum) (h : 1 ≤ s.iptr.off) : x.cmp minItem s = .lt := minItem_lt x s h

/-- The part of the page scanPage loads. -/
theorem scan_segment (x : Ctx) [TransCmp x.cmpV] (p : Page) (its : List (Item Datum)) (hp : Holds x p its) (q : Seek)
    (hq : 1 ≤ q.item.iptr.off) :
    ∃ r rest, SeekRange x q its p.index r ∧
      readList x.cfg (resetRange q r).ptr (resetRange q r).cur ((resetRange q r).maxoff + 1 - (resetRange q r).first)
        (p.data.drop (resetRange q r).ptr) =
        some ((its.drop ((resetRange q r).first - 1)).take ((resetRange q r).maxoff + 1 - (resetRange q r).first), rest) ∧
      resetRange q (narrowScan x q p.index ⟨0, 1, ⟨0, 0⟩, p.maxoff⟩) = resetRange q r := by
  obtain ⟨hd, hm, hdir, hlen⟩ := hp.facts
  have hfull : DirFull x.cfg its p.index := by
    obtain ⟨idx, hi1, hi2, hi3⟩ := updateItemIndexes_ok x.cfg its p.data hp.ok hp.stored hd
    have hb := hp.built
    simp only [buildPage, hd, hi1, Option.some.injEq] at hb
    have : p.index = idx := by rw [← hb]
    rw [this]
    exact updateItemIndexes_full x.cfg its p.data hp.ok hp.stored hd idx _ hi1
  obtain ⟨ents, he1, he2, he3, he4⟩ := hfull.ents
  have h0 : SeekRange x q its p.index ⟨0, 1, ⟨0, 0⟩, p.maxoff⟩ := by
    refine ⟨Nat.le_refl _, Or.inr rfl, ?_, fun _ => ?_, fun h => ?_, Or.inl rfl, Nat.le_of_eq hm, Or.inl hm⟩
    · simp [posOf, checkList]
    · simp [lastIptr]
    · exact absurd h (by show ¬ 2 ≤ 1; omega)
  have hr := narrowScan_ok x q its hp.ok (minItem_before x q.item hq) ents he4 he3 he2 ents [] _ rfl (by rw [← he1]; exact h0) hm rfl
  rw [← he1] at hr
  generalize narrowScan x q p.index ⟨0, 1, ⟨0, 0⟩, p.maxoff⟩ = r at hr
  have hseg : ∀ (r : Range), r.ptr = posOf x.cfg its (r.first - 1) → (x.cfg.alt = false → r.cur = lastIptr ⟨0, 0⟩ (its.take (r.first - 1))) →
      1 ≤ r.first → r.maxoff ≤ its.length → (r.first ≤ its.length ∨ r.first = 1) →
      ∃ rest, readList x.cfg r.ptr r.cur (r.maxoff + 1 - r.first) (p.data.drop r.ptr) =
        some ((its.drop (r.first - 1)).take (r.maxoff + 1 - r.first), rest) := by
    intro r h1 h2 h3 h4 h5
    rw [h1]
    exact read_segment x.cfg its p.data hp.ok hp.stored hd _ (r.first - 1) r.cur (by omega) h2
  by_cases hreset : (!q.fwd && decide (r.first ≥ r.maxoff)) = true
  · have e : resetRange q r = { r with first := 1, cur := ⟨0, 0⟩, ptr := 0 } := by
      unfold resetRange; rw [if_pos hreset]
    obtain ⟨rest, hrest⟩ := hseg { r with first := 1, cur := ⟨0, 0⟩, ptr := 0 } (by simp [posOf, checkList]) (fun _ => by simp [lastIptr])
      (Nat.le_refl _) hr.max (Or.inr rfl)
    exact ⟨r, rest, hr, by rw [e]; exact hrest, rfl⟩
  · have e : resetRange q r = r := by unfold resetRange; rw [if_neg hreset]
    obtain ⟨rest, hrest⟩ := hseg r hr.ptr hr.cur hr.lo hr.max hr.hi
    exact ⟨r, rest, hr, by rw [e]; exact hrest, rfl⟩

theorem take_drop_split {α : Type} (l : List α) (i k : Nat) : l = l.take i ++ (l.drop i).take k ++ l.drop (i + k) := by
  rw [List.append_assoc, ← List.drop_drop, List.take_append_drop, List.take_append_drop]

theorem passes_split (x : Ctx) (q : Seek) (it : Item Datum) (i k0 k1 : Nat) (_hk : k0 ≤ k1)
    (e0 : x.cmp it q.item = .lt ↔ i < k0) (e1 : x.cmp it q.item = .gt ↔ k1 ≤ i) :
    q.passes (x.cmp it q.item) = true ↔ i < (if q.eqOk then k0 else k1) := by
  unfold Seek.passes
  cases hc : x.cmp it q.item <;> rw [hc] at e0 e1 <;> cases q.eqOk <;>
    simp only [reduceCtorEq, false_iff, true_iff] at e0 e1 <;> simp <;> omega

/-! ### C22 -/

/-- **C22, forward.** On every leaf page, for every searched item, inclusive or exclusive, and every right bound that
really bounds the page: the scan is positioned on the first item of the page at or beyond the searched one, inside a
loaded list that is a contiguous part of the page; it reports failure only if the page has no such item. -/
theorem C22_forward (x : Ctx) [TransCmp x.cmpV] (p : Page) (its : List (Item Datum)) (hp : Holds x p its)
    (rb : Option (Item Datum)) (hrb : ∀ b, rb = some b → ∀ it ∈ its, x.cmp it b ≠ .gt)
    (s : Item Datum) (eqOk : Bool) (hs : 1 ≤ s.iptr.off) :
    (scanPage x p rb ⟨true, s, eqOk⟩ = some .miss ∧ ∀ it ∈ its, ¬ AtOrBeyond x true eqOk s it) ∨
    (∃ a l b i, scanPage x p rb ⟨true, s, eqOk⟩ = some (.hit l i) ∧ its = a ++ l ++ b ∧
      (∃ h : i < l.length, AtOrBeyond x true eqOk s l[i]) ∧ ∀ it ∈ a ++ l.take i, ¬ AtOrBeyond x true eqOk s it) := by
  have htr : TransCmp x.cmp := cmpItem_trans _ _
  have hpw := List.pairwise_iff_getElem.1 hp.sorted
  set q : Seek := ⟨true, s, eqOk⟩ with hq
  have hbey : ∀ it, AtOrBeyond x true eqOk s it ↔ q.passes (x.cmp it s) = false := by
    intro it
    unfold AtOrBeyond Seek.passes
    cases x.cmp it s <;> cases eqOk <;> simp [hq]
  have hmono : ∀ it y, x.cmp it y ≠ .gt → q.passes (x.cmp y s) = true → q.passes (x.cmp it s) = true := by
    intro it y h1 h2
    unfold Seek.passes at h2 ⊢
    cases hc : x.cmp y s with
    | gt => rw [hc] at h2; simp at h2
    | lt =>
      have : x.cmp it s = .lt := by
        cases hi : x.cmp it y with
        | lt => exact TransCmp.lt_trans hi hc
        | eq => exact TransCmp.lt_of_eq_of_lt hi hc
        | gt => exact absurd hi h1
      rw [this]; rfl
    | eq =>
      rw [hc] at h2
      cases hi : x.cmp it y with
      | lt => rw [TransCmp.lt_of_lt_of_eq hi hc]; rfl
      | eq => rw [TransCmp.eq_trans hi hc]; exact h2
      | gt => exact absurd hi h1
  by_cases hcut : (q.fwd && rb.any (fun b => q.passes (x.cmp b q.item))) = true
  · left
    refine ⟨by unfold scanPage; rw [if_pos hcut], fun it hit hb => ?_⟩
    rw [hbey] at hb
    cases hrbc : rb with
    | none => rw [hrbc] at hcut; simp at hcut
    | some b =>
      rw [hrbc] at hcut
      simp only [hq, Bool.true_and, Option.any_some] at hcut
      have := hmono it b (hrb b hrbc it hit) hcut
      rw [this] at hb; cases hb
  · obtain ⟨r, rest, hr, hread, hres⟩ := scan_segment x p its hp q hs
    have hnr : resetRange q r = r := by unfold resetRange; simp [hq]
    rw [hnr] at hread hres
    have hsc : scanPage x p rb q = some (position x q ((its.drop (r.first - 1)).take (r.maxoff + 1 - r.first))) := by
      unfold scanPage; rw [if_neg hcut]; simp only [hres, hread, Option.map_some]
    have hsplit := take_drop_split its (r.first - 1) (r.maxoff + 1 - r.first)
    generalize hl : (its.drop (r.first - 1)).take (r.maxoff + 1 - r.first) = l at *
    have hlsub : SSorted x.cmp l := by
      have := hp.sorted
      rw [hsplit] at this
      exact ((List.pairwise_append.1 this).1 |> List.pairwise_append.1).2.1
    -- before the segment everything passes
    have hpre : ∀ it ∈ its.take (r.first - 1), q.passes (x.cmp it s) = true := by
      intro it hit
      obtain ⟨i, hi, rfl⟩ := List.getElem_of_mem hit
      simp only [List.length_take] at hi
      rw [List.getElem_take]
      have hlo := hr.lo
      obtain ⟨h2, hpass⟩ := hr.pass (by omega)
      apply hmono _ _ _ hpass
      by_cases he : i = r.first - 2
      · subst he; rw [ReflCmp.compare_self (cmp := x.cmp)]; decide
      · rw [hpw i (r.first - 2) (by omega) h2 (by omega)]; decide
    obtain ⟨k0, k1, hk01, hk1, h0, h1, hpos⟩ := position_ok x q l hlsub
    have hkw : ∀ i (h : i < l.length), q.passes (x.cmp l[i] s) = true ↔ i < (if eqOk then k0 else k1) := by
      intro i h
      exact passes_split x q l[i] i k0 k1 hk01 (h0 i h) (h1 i h)
    rw [if_pos (show q.fwd = true from rfl), show q.eqOk = eqOk from rfl] at hpos
    rw [hsc, hpos]
    by_cases hk : (if eqOk then k0 else k1) < l.length
    · right
      rw [if_pos hk]
      refine ⟨_, l, _, _, rfl, hsplit, ⟨hk, ?_⟩, ?_⟩
      · rw [hbey]
        have := hkw _ hk
        cases hb : q.passes (x.cmp l[if eqOk then k0 else k1] s) with
        | false => rfl
        | true => exact absurd (this.1 hb) (Nat.lt_irrefl _)
      · intro it hit
        rw [hbey]
        rcases List.mem_append.1 hit with h | h
        · simp [hpre it h]
        · obtain ⟨i, hi, rfl⟩ := List.getElem_of_mem h
          simp only [List.length_take] at hi
          rw [List.getElem_take]
          simp [(hkw i (by omega)).2 (by omega)]
    · left
      rw [if_neg hk]
      refine ⟨rfl, fun it hit => ?_⟩
      rw [hbey]
      have hcase : r.maxoff = its.length := by
        rcases hr.cut with h | ⟨m, hm1, hm2, hm3, hm4, hm5⟩ | ⟨hf, -⟩
        · exact h
        · exfalso
          have hmm := hm3 rfl
          subst hmm
          have hlo := hr.lo
          have hll : l.length = r.maxoff + 1 - r.first := by
            rw [← hl]; simp only [List.length_take, List.length_drop]; have := hr.max; omega
          have hin : r.maxoff - r.first < l.length := by omega
          have heq : l[r.maxoff - r.first] = its[r.maxoff - 1] := by
            simp only [← hl, List.getElem_take, List.getElem_drop]
            congr 1; omega
          have := (hkw (r.maxoff - r.first) hin).2 (by omega)
          rw [heq] at this
          rw [show s = q.item from rfl, hm5] at this
          cases this
        · simp [hq] at hf
      rw [hsplit] at hit
      have hend : its.drop (r.first - 1 + (r.maxoff + 1 - r.first)) = [] := by
        rw [List.drop_eq_nil_iff]; have := hr.lo; omega
      rw [hend, List.append_nil] at hit
      rcases List.mem_append.1 hit with h | h
      · simp [hpre it h]
      · obtain ⟨i, hi, rfl⟩ := List.getElem_of_mem h
        simp [(hkw i hi).2 (by omega)]

/-- **C22, backward, partial.** What holds of a backward scan, for every leaf page and every searched item. If it is
positioned, then on the last item of the page at or before the searched one, inside a contiguous loaded part of the page.
It reports failure only if no item from a directory position (or from the page's start) on qualifies: items before that
position are not looked at, so a failure does not mean that the page has no such item (`C22_backward_miss_violated`).
And it reads outside of the loaded list only on an empty page, or on a page of 2 to 31 items where the items that precede
the searched one (or equal it, if that is not allowed) are exactly all but the last two
(`C22_backward_invalid_violated`). -/
theorem C22_backward_partial (x : Ctx) [TransCmp x.cmpV] (p : Page) (its : List (Item Datum)) (hp : Holds x p its)
    (rb : Option (Item Datum)) (s : Item Datum) (eqOk : Bool) (hs : 1 ≤ s.iptr.off) :
    (scanPage x p rb ⟨false, s, eqOk⟩ = some .invalid ∧
      (its = [] ∨ (2 ≤ its.length ∧ its.length ≤ 31 ∧
        ∀ i (h : i < its.length), (x.cmp its[i] s = .lt ∨ (x.cmp its[i] s = .eq ∧ eqOk = false)) ↔ i + 2 < its.length))) ∨
    (scanPage x p rb ⟨false, s, eqOk⟩ = some .miss ∧
      ∃ d, (d = 1 ∨ ∃ e ∈ p.index, e.offn = d) ∧ ∀ it ∈ its.drop (d - 1), ¬ AtOrBeyond x false eqOk s it) ∨
    (∃ a l b i, scanPage x p rb ⟨false, s, eqOk⟩ = some (.hit l i) ∧ its = a ++ l ++ b ∧
      (∃ h : i < l.length, AtOrBeyond x false eqOk s l[i]) ∧ ∀ it ∈ l.drop (i + 1) ++ b, ¬ AtOrBeyond x false eqOk s it) := by
  have htr : TransCmp x.cmp := cmpItem_trans _ _
  have hpw := List.pairwise_iff_getElem.1 hp.sorted
  set q : Seek := ⟨false, s, eqOk⟩ with hq
  obtain ⟨r, rest, hr, hread, hres⟩ := scan_segment x p its hp q hs
  have hsc : scanPage x p rb q = some (position x q ((its.drop ((resetRange q r).first - 1)).take
      ((resetRange q r).maxoff + 1 - (resetRange q r).first))) := by
    unfold scanPage
    rw [if_neg (by simp [show q.fwd = false from rfl])]
    simp only [hres, hread, Option.map_some]
  -- facts on the range after the reset
  have hR : ∃ f m, (resetRange q r).first = f ∧ (resetRange q r).maxoff = m ∧ r.maxoff = m ∧ 1 ≤ f ∧
      (f = 1 ∨ ∃ e ∈ p.index, e.offn = f) ∧ (f ≤ m ∨ (f = 1 ∧ m = 0)) := by
    have hlo := hr.lo
    unfold resetRange
    split
    · exact ⟨1, r.maxoff, rfl, rfl, rfl, Nat.le_refl _, Or.inl rfl, by omega⟩
    · next hc =>
      refine ⟨r.first, r.maxoff, rfl, rfl, rfl, hlo, hr.dir, Or.inl ?_⟩
      simp only [show q.fwd = false from rfl, Bool.not_false, Bool.true_and, decide_eq_true_eq] at hc
      omega
  obtain ⟨f, m, hf, hm, hrm, hf1, hdir, hfm⟩ := hR
  rw [hf, hm] at hsc
  have hmax := hr.max
  rw [hrm] at hmax
  have hsplit := take_drop_split its (f - 1) (m + 1 - f)
  have hafter : m ≠ 0 → ∀ it ∈ its.drop (f - 1 + (m + 1 - f)), x.cmp it s = .gt := by
    intro hm0 it hit
    have e : f - 1 + (m + 1 - f) = m := by omega
    rw [e] at hit
    obtain ⟨i, hi, rfl⟩ := List.getElem_of_mem hit
    simp only [List.length_drop] at hi
    rw [List.getElem_drop]
    rcases hr.cut with h | ⟨k, hk1, hk2, -, hk4, hk5⟩ | ⟨-, h, -⟩
    · omega
    · have hlo := hr.lo
      have hlt := hpw (k - 1) (m + i) hk4 (by omega) (by omega)
      unfold Seek.passes at hk5
      cases hc : x.cmp its[k - 1] s with
      | lt => rw [show q.item = s from rfl, hc] at hk5; simp at hk5
      | eq => exact TransCmp.gt_of_gt_of_eq (OrientedCmp.gt_of_lt hlt) hc
      | gt => exact TransCmp.gt_trans (OrientedCmp.gt_of_lt hlt) hc
    · omega
  generalize hl : (its.drop (f - 1)).take (m + 1 - f) = l at *
  have hlen : l.length = m + 1 - f := by
    rw [← hl]; simp only [List.length_take, List.length_drop]; omega
  have hlsub : SSorted x.cmp l := by
    have := hp.sorted
    rw [hsplit] at this
    exact ((List.pairwise_append.1 this).1 |> List.pairwise_append.1).2.1
  obtain ⟨k0, k1, hk01, hk1, h0, h1, hpos⟩ := position_ok x q l hlsub
  rw [if_neg (show ¬ q.fwd = true by simp [show q.fwd = false from rfl]), show q.eqOk = eqOk from rfl] at hpos
  have hbey : ∀ i (h : i < l.length), AtOrBeyond x false eqOk s l[i] ↔ i < (if eqOk then k1 else k0) := by
    intro i h
    have e0 := h0 i h; have e1 := h1 i h
    rw [show q.item = s from rfl] at e0 e1
    unfold AtOrBeyond
    cases hc : x.cmp l[i] s <;> rw [hc] at e0 e1 <;> cases eqOk <;>
      simp only [reduceCtorEq, false_iff, true_iff] at e0 e1 <;> simp <;> omega
  have hkl : (if eqOk then k1 else k0) ≤ l.length := by split <;> omega
  by_cases hl0 : l.length = 0
  · left
    rw [if_pos hl0] at hpos
    refine ⟨by rw [hsc, hpos], ?_⟩
    have hm0 : m = 0 := by omega
    rcases hr.cut with h | ⟨k, hk1, hk2, -⟩ | ⟨-, -, c1, c2, c3, c4, c5⟩
    · left; exact List.length_eq_zero_iff.1 (by omega)
    · have := hr.lo; omega
    · right
      refine ⟨c2, c1, fun i h => ?_⟩
      have hps : (x.cmp its[i] s = .lt ∨ (x.cmp its[i] s = .eq ∧ eqOk = false)) ↔ q.passes (x.cmp its[i] s) = true := by
        unfold Seek.passes
        rw [show q.eqOk = eqOk from rfl]
        cases x.cmp its[i] s <;> cases eqOk <;> simp
      rw [hps]
      constructor
      · intro hh
        by_contra hge
        have c5' : q.passes (x.cmp its[its.length - 2] s) = false := c5
        by_cases hi : i = its.length - 2
        · subst hi; rw [hh] at c5'; cases c5'
        · have hlt := hpw (its.length - 2) i c4 h (by omega)
          have : q.passes (x.cmp its[its.length - 2] s) = true := by
            unfold Seek.passes at hh ⊢
            cases hc : x.cmp its[i] s with
            | lt => rw [TransCmp.lt_trans hlt hc]; rfl
            | eq => rw [TransCmp.lt_of_lt_of_eq hlt hc]; rfl
            | gt => rw [hc] at hh; simp at hh
          rw [this] at c5'; cases c5'
      · intro hi
        obtain ⟨p1, p2⟩ := hr.pass (by omega)
        have e : r.first - 2 = its.length - 3 := by omega
        have p2' : q.passes (x.cmp (its[its.length - 3]'(by omega)) s) = true := by
          have : its[r.first - 2] = its[its.length - 3]'(by omega) := by congr 1
          rw [this] at p2; exact p2
        by_cases he : i = its.length - 3
        · subst he; exact p2'
        · have hlt := hpw i (its.length - 3) h (by omega) (by omega)
          unfold Seek.passes at p2' ⊢
          cases hc : x.cmp (its[its.length - 3]'(by omega)) s with
          | lt => rw [TransCmp.lt_trans hlt hc]; rfl
          | eq => rw [TransCmp.lt_of_lt_of_eq hlt hc]; rfl
          | gt => rw [hc] at p2'; simp at p2'
  · have hm0 : m ≠ 0 := by omega
    have hnot : ∀ it ∈ its.drop (f - 1 + (m + 1 - f)), ¬ AtOrBeyond x false eqOk s it := by
      intro it hit hb
      unfold AtOrBeyond at hb
      rw [hafter hm0 it hit] at hb
      simp at hb
    rw [if_neg hl0] at hpos
    right
    by_cases hk : 0 < (if eqOk then k1 else k0)
    · right
      rw [if_pos hk] at hpos
      refine ⟨_, l, _, _, by rw [hsc, hpos], hsplit, ⟨by omega, (hbey _ (by omega)).2 (by omega)⟩, fun it hit => ?_⟩
      rcases List.mem_append.1 hit with h | h
      · obtain ⟨i, hi, rfl⟩ := List.getElem_of_mem h
        simp only [List.length_drop] at hi
        rw [List.getElem_drop, hbey _ (by omega)]
        omega
      · exact hnot it h
    · left
      rw [if_neg hk] at hpos
      refine ⟨by rw [hsc, hpos], f, hdir, fun it hit => ?_⟩
      have e : its.drop (f - 1) = l ++ its.drop (f - 1 + (m + 1 - f)) := by
        rw [← hl, ← List.drop_drop, List.take_append_drop]
      rw [e] at hit
      rcases List.mem_append.1 hit with h | h
      · obtain ⟨i, hi, rfl⟩ := List.getElem_of_mem h
        rw [hbey i hi]; omega
      · exact hnot it h

/-! ### Witnesses -/

/-- Items with values `10, 20, …` in the index ordered by additional information of the example of C08. -/
def tens (n : Nat) : List (Item Datum) := (List.range n).map fun i => ai (i + 1) (10 * (i + 1))

theorem tens_holds (n : Nat) (hn : n < 1000) (p : Page) (hp : buildPage altCtx.cfg (tens n) = some p)
    (hs : SSorted altCtx.cmp (tens n)) : Holds altCtx p (tens n) := by
  refine ⟨fun it h => ?_, fun it h => ?_, hs, hp⟩
  · simp only [tens, List.mem_map, List.mem_range] at h
    obtain ⟨i, hi, rfl⟩ := h
    simp [ItemOK, Iptr.Fits, Datum.Typed, altCtx, ai]
    omega
  · simp only [tens, List.mem_map, List.mem_range] at h
    obtain ⟨i, hi, rfl⟩ := h
    rfl

theorem tens_page (n : Nat) (h : (buildPage altCtx.cfg (tens n)).isSome = true) : ∃ p, buildPage altCtx.cfg (tens n) = some p :=
  Option.isSome_iff_exists.1 h

/-- The hypotheses of `C22_forward` are met by a page of five items, bounded by its last item, and both outcomes occur. -/
example : ∃ p, Holds altCtx p (tens 5) ∧ (∀ it ∈ tens 5, altCtx.cmp it (ai 5 50) ≠ .gt) ∧
    scanPage altCtx p (some (ai 5 50)) ⟨true, ai 9 25, true⟩ = some (.hit [ai 3 30] 0) ∧
    scanPage altCtx p (some (ai 5 50)) ⟨true, ai 5 50, false⟩ = some .miss := by
  obtain ⟨p, hp⟩ := tens_page 5 (by decide +kernel)
  have e : ∀ q, scanPage altCtx p (some (ai 5 50)) q = (buildPage altCtx.cfg (tens 5)).bind (fun p => scanPage altCtx p (some (ai 5 50)) q) := by
    intro q; rw [hp]; rfl
  exact ⟨p, tens_holds 5 (by decide) p hp (by decide), by decide, by rw [e]; decide +kernel, by rw [e]; decide +kernel⟩

/-- **C22 is false for backward scans (1).** A page with the values 10, 20, 30, 40, 50 searched backward from 25,
inclusive: failure is reported, although 10 and 20 qualify. -/
theorem C22_backward_miss_violated : ∃ p, Holds altCtx p (tens 5) ∧
    scanPage altCtx p none ⟨false, ai 9 25, true⟩ = some .miss ∧ ai 2 20 ∈ tens 5 ∧
    AtOrBeyond altCtx false true (ai 9 25) (ai 2 20) := by
  obtain ⟨p, hp⟩ := tens_page 5 (by decide +kernel)
  have e : ∀ q, scanPage altCtx p none q = (buildPage altCtx.cfg (tens 5)).bind (fun p => scanPage altCtx p none q) := by
    intro q; rw [hp]; rfl
  exact ⟨p, tens_holds 5 (by decide) p hp (by decide), by rw [e]; decide +kernel, by decide, by left; decide⟩

/-- **C22 is false for backward scans (2).** After a backward scan has returned every item of a page of three items, the
request for an item before the first one reads `list[-1]`. -/
theorem C22_backward_invalid_violated : ∃ p, Holds altCtx p (tens 3) ∧
    scanPage altCtx p none ⟨false, ai 1 10, false⟩ = some .invalid := by
  obtain ⟨p, hp⟩ := tens_page 3 (by decide +kernel)
  have e : ∀ q, scanPage altCtx p none q = (buildPage altCtx.cfg (tens 3)).bind (fun p => scanPage altCtx p none q) := by
    intro q; rw [hp]; rfl
  exact ⟨p, tens_holds 3 (by decide) p hp (by decide), by rw [e]; decide +kernel⟩

/-- Non-vacuity of the positive outcome of `C22_backward_partial`. -/
example : ∃ p, Holds altCtx p (tens 5) ∧ scanPage altCtx p none ⟨false, ai 3 30, true⟩ = some (.hit [ai 3 30, ai 4 40, ai 5 50] 0) := by
  obtain ⟨p, hp⟩ := tens_page 5 (by decide +kernel)
  have e : ∀ q, scanPage altCtx p none q = (buildPage altCtx.cfg (tens 5)).bind (fun p => scanPage altCtx p none q) := by
    intro q; rw [hp]; rfl
  exact ⟨p, tens_holds 5 (by decide) p hp (by decide), by rw [e]; decide +kernel⟩

end Rum.Props
