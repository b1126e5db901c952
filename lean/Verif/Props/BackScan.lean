import Verif.BackScan
import Verif.Props.Conc
import Verif.Props.Split
/-!
# C46: backward scans among concurrent insertions
-/
namespace Rum.Props.BackScan
open Rum Rum.Tree Rum.Codec Rum.Leaf Rum.Entry Rum.Props Rum.Props.PostingTree Rum.Props.Conc Std

/-! ### Specification -/

/-- Runs of the other backends with a backward cursor among them: the cursor visits pages not kept locked by anyone. -/
inductive BackRun (x : Ctx) (cap capI : Nat) (M : Lim) (build : Bool) (root : Nat) (mark : Option (Item Datum)) :
    Sys (Item Datum) × Back → Sys (Item Datum) × Back → Prop
  | refl (y : Sys (Item Datum) × Back) : BackRun x cap capI M build root mark y y
  | other {y z : Sys (Item Datum) × Back} {w : Sys (Item Datum)} {e : Event} : BackRun x cap capI M build root mark y z →
      Fires x cap capI M build root e z.1 w → BackRun x cap capI M build root mark y (w, z.2)
  | own {y z : Sys (Item Datum) × Back} : BackRun x cap capI M build root mark y z →
      (∀ j c, holds (z.1.th j) = some c → z.2.visit ≠ some c) →
      BackRun x cap capI M build root mark y (z.1, actBack x root mark z.1.store z.2)

/-! ### The counterexample -/

section
variable {x : Ctx} {cap capI : Nat} {M : Lim} {build : Bool} {root : Nat} {mark : Option (Item Datum)}

/-- `n` steps of the cursor. -/
def soloB (x : Ctx) (root : Nat) (mark : Option (Item Datum)) (s : Store (Item Datum)) : Nat → Back → Back
  | 0, b => b
  | n + 1, b => soloB x root mark s n (actBack x root mark s b)

theorem BackRun.trans {y z w : Sys (Item Datum) × Back} (h : BackRun x cap capI M build root mark y z) (h' : BackRun x cap capI M build root mark z w) :
    BackRun x cap capI M build root mark y w := by
  induction h' with
  | refl => exact h
  | other h1 h2 ih => exact ih.other h2
  | own h1 h2 ih => exact ih.own h2

theorem backRun_of {y z : Sys (Item Datum)} {es : List Event} (b : Back) (h : Run x cap capI M build root y es z) :
    BackRun x cap capI M build root mark (y, b) (z, b) := by
  induction h with
  | refl => exact .refl _
  | snoc h1 h2 ih => exact ih.other h2

theorem backRun_solo {y : Sys (Item Datum)} (hy : ∀ j, holds (y.th j) = none) : ∀ (n : Nat) (b : Back),
    BackRun x cap capI M build root mark (y, b) (y, soloB x root mark y.store n b) := by
  intro n
  induction n with
  | zero => intro b; exact .refl _
  | succ n ih =>
    intro b
    refine BackRun.trans (.own (.refl (y, b)) ?_) (ih _)
    intro j c hc
    rw [hy] at hc; cases hc

end

/-- An index ordered by 8-byte additional info: the items of a tree with a root and two leaves. -/
def bkItem (n : Nat) : Item Datum := ai n (10 * n)
def bkFirst : List (Item Datum) := [1, 2, 3, 8, 9].map bkItem
def bkTree : Store (Item Datum) := (createTree exStore bkFirst).1
def bkA : Store (Item Datum) × Thread (Item Datum) := solo (dataOps altCtx 88 96 false) altCtx 0 1 (bkTree, .ins [bkItem 10] 0 [])
/-- The cursor has read the right leaf and knows the link to the left one. -/
def bkCur : Back := soloB altCtx 0 (some (bkItem 11)) bkA.1 4 (.opening 0)
/-- Then the left leaf is split. -/
def bkBatch : List (Item Datum) := [4, 5, 6].map bkItem
def bkB : Store (Item Datum) × Thread (Item Datum) := solo (dataOps altCtx 88 96 false) altCtx 0 5 (bkA.1, .ins bkBatch 0 [])
def bkEnd : Back := soloB altCtx 0 (some (bkItem 11)) bkB.1 6 bkCur

def bkDone : Back → Option (List Nat)
  | .ended acc => some (acc.map (fun it => it.iptr.off))
  | _ => none

theorem bk_facts : isInserted bkA.2 = true ∧ isInserted bkB.2 = true ∧ bkDone bkEnd = some [10, 9, 4, 3, 2, 1] ∧
    (contents bkA.1 0).map (fun it => it.iptr.off) = [1, 2, 3, 8, 9, 10] := by
  unfold bkEnd bkB bkCur bkA
  rw [← dataOpsF_eq]
  decide +kernel

theorem bkStorable (n : Nat) (h : n < 16) (h1 : 1 ≤ n) : Storable altCtx 14 (bkItem n) := by
  refine ⟨⟨⟨?_, ?_⟩, ?_, ?_⟩, ?_, ?_, ?_, ?_⟩
  · show 1 < _; omega
  · show n < _; omega
  · revert n; decide +kernel
  · intro d hd
    refine ⟨⟨true, 8, 8, true⟩, rfl, ?_⟩
    obtain rfl : Datum.byval (10 * n) = d := by simpa [bkItem, ai] using hd
    refine ⟨rfl, by simp, ?_⟩
    have : (256 : Nat) ≤ 256 ^ 8 := by decide
    show 10 * n < 256 ^ 8
    omega
  · revert n; decide +kernel
  · show 1 ≤ n; omega
  · revert n; decide +kernel
  · revert n; decide +kernel

theorem bkBatchOK (l : List Nat) (h : ∀ n ∈ l, n < 16 ∧ 1 ≤ n) (hs : SSorted altCtx.cmp (l.map bkItem)) : BatchOK altCtx 14 (l.map bkItem) := by
  refine ⟨hs, ?_, fun h => by cases h⟩
  intro it hi
  obtain ⟨n, hn, rfl⟩ := List.mem_map.1 hi
  exact bkStorable n (h n hn).1 (h n hn).2

theorem bkReach : Reach altCtx 88 96 14 false bkTree 0 :=
  Reach.create exStore bkFirst (bkBatchOK [1, 2, 3, 8, 9] (by decide) (by unfold SSorted; decide +kernel)).list (by decide +kernel)

theorem bkRunA : ∃ es, Run altCtx 88 96 14 false 0 (atRest bkTree) es (duo bkA.1 .idle bkA.2) := by
  rw [← duo_rest]
  exact ⟨_, (run_start1 (op := .insert [bkItem 10]) rfl (bkBatchOK [10] (by decide) (by simp [SSorted]))).trans (run_solo1 rfl 1 _ _)⟩

theorem bkHolds : ∀ j, holds ((duo bkA.1 .idle bkA.2).th j) = none := by
  intro j
  simp only [duo]
  rw [inserted_of bk_facts.1]
  split
  · rfl
  · split <;> rfl

theorem bkHolds2 : ∀ j, holds ((duo bkB.1 .idle bkB.2).th j) = none := by
  intro j
  simp only [duo]
  rw [inserted_of bk_facts.2.1]
  split
  · rfl
  · split <;> rfl

/-- **C46 is false.** A backward scan has read a page and the link to the page left of it; before it locks that page, an insertion splits it:
the scan then reads only the left half, and the items that were moved to the new page are missed. -/
theorem C46_violated : ∃ (x : Ctx) (cap capI : Nat) (M : Lim) (build : Bool) (s : Store (Item Datum)) (root : Nat) (mark : Item Datum), Sizes x cap capI M ∧
    Reach x cap capI M build s root ∧ ∃ (y z : Sys (Item Datum)) (es : List Event) (acc : List (Item Datum)) (a : Item Datum),
      Run x cap capI M build root (atRest s) es y ∧
      BackRun x cap capI M build root (some mark) (y, .opening root) (z, .ended acc) ∧
      a ∈ contents y.store root ∧ x.cmp a mark = .lt ∧ a ∉ acc := by
  obtain ⟨f1, f2, f3, f4⟩ := bk_facts
  obtain ⟨es, hr⟩ := bkRunA
  obtain ⟨acc, hacc, hlen⟩ : ∃ acc, bkEnd = .ended acc ∧ acc.map (fun it => it.iptr.off) = [10, 9, 4, 3, 2, 1] := by
    cases hth : bkEnd <;> rw [hth] at f3 <;> simp [bkDone] at f3
    next acc => exact ⟨acc, rfl, by simpa using f3⟩
  have h8 : ∃ a ∈ contents bkA.1 0, a.iptr.off = 8 := by
    have : 8 ∈ (contents bkA.1 0).map (fun it => it.iptr.off) := by rw [f4]; decide
    obtain ⟨a, ha, he⟩ := List.mem_map.1 this
    exact ⟨a, ha, he⟩
  obtain ⟨a, ha, he⟩ := h8
  have hz : Sizes altCtx 88 96 14 := ⟨by decide, by decide, by decide, by decide⟩
  refine ⟨altCtx, 88, 96, 14, false, bkTree, 0, bkItem 11, hz, bkReach, duo bkA.1 .idle bkA.2, duo bkB.1 .idle bkB.2, es, acc, a, hr, ?_, ha, ?_, ?_⟩
  · rw [← hacc]
    refine BackRun.trans (backRun_solo bkHolds 4 _) ?_
    refine BackRun.trans (backRun_of bkCur ((run_start1 (op := .insert bkBatch) (by rw [inserted_of f1]; rfl)
      (bkBatchOK [4, 5, 6] (by decide) (by unfold SSorted; decide +kernel))).trans (run_solo1 rfl 5 _ _))) ?_
    exact backRun_solo bkHolds2 6 bkCur
  · obtain ⟨K, hK, key, G, hk, I, -, h2⟩ := reach_run hz bkReach hr
    have hsub : ∀ c ∈ contents bkA.1 0, altCtx.cmp c (bkItem 11) = .lt := by
      have : (contents bkA.1 0).all (fun c => altCtx.cmp c (bkItem 11) == .lt) = true := by
        unfold bkA
        rw [← dataOpsF_eq]
        decide +kernel
      intro c hc
      simpa using List.all_eq_true.1 this c hc
    exact hsub a ha
  · intro hm
    have : a.iptr.off ∈ acc.map (fun it => it.iptr.off) := List.mem_map.2 ⟨a, hm, rfl⟩
    rw [hlen, he] at this
    revert this; decide

end Rum.Props.BackScan
