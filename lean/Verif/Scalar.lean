import Verif.Collect
import Verif.BtreeOps
/-!
# Searches with the comparison operators of the scalar operator classes
-/
namespace Rum.Index
open Rum Rum.Codec Rum.Leaf Rum.Entry Rum.Tree Rum.Extract Rum.Bt

variable {V : Type}

/-- rum_btree_extract_value, `/repo/src/btree_rum.c:55-68`; rumExtractEntries does not call it for NULL, `/repo/src/rumutil.c:751-766`. -/
def scalarValue : Option V → Option (List (Raw V Datum))
  | none => none
  | some v => some [⟨some v, none⟩]

/-- A condition `column OP datum` with `datum` not NULL. -/
structure Comparison (V : Type) where
  attnum : Nat
  op : Strategy
  datum : V

/-- The entry rum_btree_extract_query (`/repo/src/btree_rum.c:78-127`) and rumFillScanEntry make of a comparison, with rum_btree_compare_prefix
(`/repo/src/btree_rum.c:134-196`) as the partial match function. -/
def Comparison.look (cmpK : Nat → V → V → Ordering) (leftmost : Nat → V) (c : Comparison V) : Look V :=
  if (extractQuery (leftmost c.attnum) c.op c.datum).2 then
    ⟨.norm, (extractQuery (leftmost c.attnum) c.op c.datum).1, .part (comparePrefix (cmpK c.attnum) c.op c.datum (extractQuery (leftmost c.attnum) c.op c.datum).1)⟩
  else ⟨.norm, (extractQuery (leftmost c.attnum) c.op c.datum).1, .exact⟩

/-- The scan key of a comparison; rum_btree_consistent accepts without recheck, `/repo/src/btree_rum.c:198-206`. -/
def Comparison.clause (cmpK : Nat → V → V → Ordering) (leftmost : Nat → V) (c : Comparison V) : Clause V :=
  ⟨c.attnum, [c.look cmpK leftmost], fun _ => (true, false)⟩

end Rum.Index
