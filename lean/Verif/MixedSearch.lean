import Verif.Scalar
import Verif.TextSearch
/-!
# Searches with conditions of different kinds on the columns of one index
-/
namespace Rum.Index
open Rum Rum.Codec Rum.Leaf Rum.Entry Rum.Tree Rum.Extract Rum.FullText Rum.Pos Rum.Ts

variable {L V F : Type}

/-- A condition of the WHERE clause. -/
inductive AnyCond (L V : Type)
  | compare (c : Comparison V)
  | array (c : ArrayCond V)
  | text (c : TsSearch L)

def AnyCond.attnum : AnyCond L V → Nat
  | .compare c => c.attnum
  | .array c => c.attnum
  | .text c => c.attnum

/-- What the operator classes of the columns need to make scan keys: the least value of a scalar type; similarity function, floating-point operations and threshold of
`%`; the tsvector classes, the order of words and the sort of SortAndUniqItems. -/
structure Classes (L V F : Type) where
  leftmost : Nat → V
  fl : Arr.Float8 F
  fn : Arr.SimFn
  thr : F
  text : Nat → TsClass L V
  cmpL : L → L → Ordering
  opSort : List (Opnd L) → List (Opnd L)

/-- The scan key of a condition, initScanKey with the extractQuery function of the column's operator class, `/repo/src/rumscan.c:372-465`. -/
def AnyCond.clause [Inhabited V] (k : Classes L V F) (cmpK : Nat → V → V → Ordering) : AnyCond L V → Clause V
  | .compare c => c.clause cmpK k.leftmost
  | .array c => c.clause k.fl k.fn k.thr cmpK
  | .text c => c.clause k.text k.cmpL k.opSort

/-- isVoidRes, `/repo/src/rumscan.c:413-423`: comparisons and queries with words have entries. -/
def AnyCond.void (cmpK : Nat → V → V → Ordering) : AnyCond L V → Bool
  | .array c => c.void cmpK
  | _ => false

/-- A search by conditions of any kinds: nothing if one of them is void (`/repo/src/rumscan.c:602-604`, `/repo/src/rumget.c:2353-2354`). -/
def Ix.findAny (ix : Ix V) [Inhabited V] (rc : RowCfg V) (alternative : Bool) (k : Classes L V F)
    (sort : (Item Datum → Item Datum → Ordering) → List (Item Datum) → List (Item Datum)) (join : Nat → Option (Datum → Datum → Datum)) (st : State V)
    (junk : Item Datum) (n : Nat) (c : AnyCond L V) (cs : List (AnyCond L V)) : Option (List (Item Datum × Bool) × Bool) :=
  if (c :: cs).any (fun d => d.void ix.cmpK) then some ([], true)
  else ix.find rc alternative sort join st junk n (c.clause k ix.cmpK) (cs.map (fun d => d.clause k ix.cmpK))

end Rum.Index
