import Verif.Collect
import Verif.ArrayOps
/-!
# Searches with the array operators of rum_anyarray_ops
-/
namespace Rum.Index
open Rum Rum.Codec Rum.Leaf Rum.Entry Rum.Tree Rum.Extract

variable {V : Type}

/-- rum_extract_anyarray, `/repo/src/rum_arr_utils.c:172-207`: the distinct elements, each with their number as additional info; rumExtractEntries does not
call it for NULL, `/repo/src/rumutil.c:751-766`. -/
def arrayValue (cmp : V → V → Ordering) : Option (List V) → Option (List (Raw V Datum))
  | none => none
  | some a => some ((Arr.simple cmp a).map (fun v => ⟨some v, some (.byval (Arr.simple cmp a).length)⟩))

/-- A condition `column OP array` with `array` not NULL. -/
structure ArrayCond (V : Type) where
  attnum : Nat
  op : Arr.Strategy
  query : List V

/-- The hidden entry of a non-default search mode, `/repo/src/rumscan.c:271-303`. -/
def hiddenLooks [Inhabited V] : Arr.Mode → List (Look V)
  | .dflt => []
  | .includeEmpty => [⟨.emptyItem, default, .exact⟩]
  | .all => [⟨.emptyQuery, default, .all⟩]

/-- DatumGetInt32 of the additional info. -/
def int4Of : Datum → Nat
  | .byval n => n
  | _ => 0

/-- `check[i]`, `addInfo[i]` and `addInfoIsNull[i]` for rum_anyarray_consistent. -/
def chkOf : Option (Option Datum) → Arr.Chk
  | none => ⟨false, none⟩
  | some i => ⟨true, i.map int4Of⟩

variable {F : Type}

/-- The scan key rum_extract_anyarray_query (`/repo/src/rum_arr_utils.c:210-266`) and rumFillScanKey (`/repo/src/rumscan.c:137-319`) make of a condition; the consistency
function is told about the user's entries only (`nuserentries`, `/repo/src/rumget.c:170-182`). -/
def ArrayCond.clause [Inhabited V] (fl : Arr.Float8 F) (fn : Arr.SimFn) (thr : F) (cmpK : Nat → V → V → Ordering) (c : ArrayCond V) : Clause V :=
  ⟨c.attnum, (Arr.simple (cmpK c.attnum) c.query).map (fun k => ⟨.norm, k, .exact⟩) ++ hiddenLooks (Arr.searchMode c.op (Arr.simple (cmpK c.attnum) c.query).length),
   fun v => Arr.consistent fl fn thr c.op ((v.take (Arr.simple (cmpK c.attnum) c.query).length).map chkOf)⟩

/-- isVoidRes: no entries in the default mode, `/repo/src/rumscan.c:413-423`. -/
def ArrayCond.void (cmpK : Nat → V → V → Ordering) (c : ArrayCond V) : Bool :=
  (Arr.simple (cmpK c.attnum) c.query).isEmpty && decide (Arr.searchMode c.op (Arr.simple (cmpK c.attnum) c.query).length = .dflt)

/-- A search by array conditions: nothing if one of them is void (`/repo/src/rumscan.c:602-604`, `/repo/src/rumget.c:2353-2354`). -/
def Ix.findArrays (ix : Ix V) [Inhabited V] (rc : RowCfg V) (alternative : Bool) (fl : Arr.Float8 F) (fn : Arr.SimFn) (thr : F)
    (sort : (Item Datum → Item Datum → Ordering) → List (Item Datum) → List (Item Datum)) (join : Nat → Option (Datum → Datum → Datum)) (st : State V)
    (junk : Item Datum) (n : Nat) (c : ArrayCond V) (cs : List (ArrayCond V)) : Option (List (Item Datum × Bool) × Bool) :=
  if (c :: cs).any (fun d => d.void ix.cmpK) then some ([], true)
  else ix.find rc alternative sort join st junk n (c.clause fl fn thr ix.cmpK) (cs.map (fun d => d.clause fl fn thr ix.cmpK))

end Rum.Index
