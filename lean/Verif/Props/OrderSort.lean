import Verif.Props.OrderVals
import Verif.Props.BalSort
/-!
# C48 with RUM's own sorts

C48_order_partial holds for any sorting function; here the sort is that of C76 and C77.
-/
namespace Rum.Props.OrderSort
open Rum Rum.ScanKeys Rum.OrderVals Rum.Sort Rum.Props.ScanKeys Rum.Props.OrderVals

variable {Q K X V D : Type}

/-- The ways in which rum_tuplesort can come to sort `inp` and their results, `out`: all of it in memory (qsort_tuple.c); versions 10 to 14 on at least three tapes, versions 15 on at least two (with any
sort of the portions in memory), wherever memory ends, fetched from tape (`ra`) or merged while fetched. -/
inductive TupleSort {α : Type} [Inhabited α] (cmp : α → α → Ordering) (inp : List α) : Option (List α) → Prop
  | memory : TupleSort cmp inp (some (QSort.sortMem cmp inp))
  | polyphase (ra : Bool) (T : Nat) (full : List (List α)) (last : List α) : 2 ≤ T → full.flatten ++ last = inp → TupleSort cmp inp (TapeSort.tapeSort cmp ra T full last)
  | balanced (memSort : List α → List α) (ra : Bool) (M : Nat) (full : List (List α)) (last : List α) : 2 ≤ M → (∀ l, SortedBy cmp l (memSort l)) → full ≠ [] → (∀ mem ∈ full, mem ≠ []) →
      full.flatten ++ last = inp → TupleSort cmp inp (BalSort.tapeSort cmp memSort ra M full last)

/-- **C36, C76 and C77 together.** However memory divides the rows of an ORDER BY sort, the sort ends with the same rows in order. -/
theorem C77_tuplesort {F : Type} [Inhabited F] {cmpF : F → F → Ordering} [Std.TransCmp cmpF] (zero : F) (nKeys : Nat) (byTid : Bool) (inp : List (SortItem F)) {res : Option (List (SortItem F))}
    (h : TupleSort (cmpSortItem cmpF zero nKeys byTid) inp res) : ∃ out, res = some out ∧ SortedBy (cmpSortItem cmpF zero nKeys byTid) inp out := by
  cases h with
  | memory => exact ⟨_, rfl, Rum.Props.QSort.C76_orderby zero nKeys byTid inp⟩
  | polyphase ra T full last hT he =>
    obtain ⟨out, h1, h2⟩ := Rum.Props.TapeSort.C77_orderby (cmpF := cmpF) zero nKeys byTid ra T hT full last
    exact ⟨out, h1, he ▸ h2⟩
  | balanced memSort ra M full last hM hs h1 h2 he =>
    obtain ⟨out, h3, h4⟩ := Rum.Props.BalSort.C77_balanced_orderby (cmpF := cmpF) zero nKeys byTid ra M hM hs full h1 h2 last
    exact ⟨out, h3, he ▸ h4⟩

/-- **C48, the order of the rows, with the sort of the code.** In the scope of C48_order_partial: however many rows there are and wherever memory ends while they are sorted, the sort ends, and the rows come
out in the order of the distances the ORDER BY operators ask for, each once. -/
theorem C48_sorted_partial [Inhabited D] {R : Type} {c : Cfg} {ex : InKey Q → Extr K X} {d : Dists Q K X V D} {world : R → RowWorld Q K X V} {filters orders : List (InKey Q)}
    {p : Plan Q K X} {att : R → Option V} {val : R → Nat → Option K} (hc : c.attach ≠ c.addTo) (hf : ∀ k ∈ filters, k.orderBy = false)
    (ho : ∀ k ∈ orders, k.orderBy = true) (h : newScanKey c ex filters orders = .ok p) (hv : p.void = false) (rows : List R)
    (law : ∀ r ∈ rows, RowLaw c ex (world r) filters (att r) (val r)) (hp : ∀ r ∈ rows, Plain c filters orders (att r))
    (cmpD : D → D → Ordering) [Std.TransCmp cmpD] (zero : D) (tid : R → Iptr) (recheck : R → Bool) {res : Option (List (SortItem D))}
    (hs : TupleSort (cmpSortItem cmpD zero orders.length false) (rows.map (fun r => sortItem c d zero p (world r) (tid r) (recheck r))) res) :
    ∃ rs : List R, rs.Perm rows ∧ res = some (rs.map (fun r => sortItem c d zero p (world r) (tid r) (recheck r))) ∧
      rs.Pairwise (fun a b => ¬ Before cmpD (orders.filter (fun k => decide (Satisfiable ex k))) (fun r => wanted c ex d (world r) (att r) (val r)) b a) := by
  obtain ⟨out, e, hs'⟩ := C77_tuplesort zero orders.length false _ hs
  obtain ⟨rs, h1, h2, h3⟩ := C48_order_partial hc hf ho h hv rows law hp cmpD zero tid recheck out hs'
  exact ⟨rs, h1, by rw [e, h2], h3⟩

/-- The hypotheses are met: two rows of the example of C48_witness, sorted on four tapes with a portion for each. -/
example : ∃ p, newScanKey exCfg exExtract exFilters exOrders = .ok p ∧ p.void = false ∧ ∃ res,
    TupleSort (cmpSortItem (compare : Nat → Nat → Ordering) 0 exOrders.length false)
      ([2, 1].map (fun r : Nat => sortItem exCfg exDists 0 p exRow ⟨r, 1⟩ false)) res ∧
    ∃ rs : List Nat, rs.Perm [2, 1] ∧ res = some (rs.map (fun r => sortItem exCfg exDists 0 p exRow ⟨r, 1⟩ false)) := by
  have hw := C48_witness
  cases hp : newScanKey exCfg exExtract exFilters exOrders with
  | error e => rw [hp] at hw; exact absurd hw.1 (by simp [Except.toOption])
  | ok p =>
    rw [hp] at hw
    have hv : p.void = false := by have := hw.1; simp [Except.toOption] at this; exact this.1
    have hs : TupleSort (cmpSortItem (compare : Nat → Nat → Ordering) 0 exOrders.length false) ([2, 1].map (fun r : Nat => sortItem exCfg exDists 0 p exRow ⟨r, 1⟩ false)) _ :=
      .polyphase true 3 [[sortItem exCfg exDists 0 p exRow ⟨2, 1⟩ false], [sortItem exCfg exDists 0 p exRow ⟨1, 1⟩ false]] [] (by decide) rfl
    obtain ⟨rs, h1, h2, _⟩ := C48_sorted_partial (R := Nat) (world := fun _ => exRow) (att := fun _ => some 7) (val := fun _ => exVal) (c := exCfg) (ex := exExtract) (d := exDists)
      (by decide) (by decide) (by decide) hp hv [2, 1] (fun _ _ => hw.2.1) (fun _ _ => hw.2.2.1) compare 0 (fun r => ⟨r, 1⟩) (fun _ => false) hs
    exact ⟨p, rfl, hv, _, hs, rs, h1, h2⟩

end Rum.Props.OrderSort
