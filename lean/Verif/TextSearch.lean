import Verif.FullText
import Verif.ArraySearch
/-!
# Full-text searches with prefix operands and with queries that match documents without any of their words
-/
namespace Rum.Index
open Rum Rum.Codec Rum.Leaf Rum.Entry Rum.Tree Rum.Extract Rum.FullText Rum.Pos Rum.Ts

variable {L V : Type}

/-- PostgreSQL's tsCompareString without `prefix`: bytes, then length. It orders operands (`/repo/src/rum_ts_utils.c:1066-1077`) and, as gin_cmp_tslexeme, the keys of
rum_tsvector_ops (`/repo/rum_init.sql:135`). Core code, modelled by assumption. -/
def tsCompare : List Nat → List Nat → Ordering
  | [], [] => .eq
  | [], _ :: _ => .lt
  | _ :: _, [] => .gt
  | a :: as, b :: bs => (compare a b).then (tsCompare as bs)

/-- tsCompareString with `prefix`: the first string may be shorter. -/
def tsComparePrefix : List Nat → List Nat → Ordering
  | [], _ => .eq
  | _ :: _, [] => .gt
  | a :: as, b :: bs => (compare a b).then (tsComparePrefix as bs)

/-- gin_cmp_prefix, `/repo/rum_init.sql:139`: 0 for words that begin with the operand, positive for all others. Core code, modelled by assumption. -/
def ginCmpPrefix (query key : List Nat) : Int := if tsComparePrefix query key = .eq then 0 else 1

/-- An operator class for tsvector, `/repo/rum_init.sql:130-176`, `249-279`, `430-455`: how words become keys, the type of the additional info, whether another column
takes the place of the positions, and the partial match function. -/
structure TsClass (L V : Type) where
  build : L → V
  attr : Attr
  addon : Bool
  prefixCmp : L → V → Int

/-- rum_ts_join_pos, `/repo/src/rum_ts_utils.c:2266-2358`. -/
def joinTs (x y : Datum) : Datum := .varlena .full ((joinPos (dataBytes x) (dataBytes y)).getD [])

/-- A condition `column @@ query`. -/
structure TsSearch (L : Type) where
  attnum : Nat
  query : Query (Opnd L)

/-- The entry of an operand: `partialmatch` is its prefix flag, `/repo/src/rum_ts_utils.c:1320-1325`. -/
def TsClass.look (k : TsClass L V) (o : Opnd L) : Look V := ⟨.norm, k.build o.lex, if o.pre then .part (k.prefixCmp o.lex) else .exact⟩

/-- rum_tsquery_consistent or, in the classes for an attached column, rum_tsquery_timestamp_consistent. -/
def TsClass.consistent (k : TsClass L V) (e : Opnd L → Stored) (q : Query (Opnd L)) : Bool × Bool :=
  if k.addon then tsTimestampConsistent e q else tsConsistent e q

/-- The search mode, `/repo/src/rum_ts_utils.c:1294-1302`. -/
def tsMode {O : Type} (q : Query O) : Arr.Mode := if requiresMatch q then .dflt else .all

/-- The scan key rum_extract_tsquery_internal (`/repo/src/rum_ts_utils.c:1271-1357`) and rumFillScanKey (`/repo/src/rumscan.c:137-319`) make of a condition; the consistency
function is told about the user's entries only. -/
def TsSearch.clause [Inhabited V] (cls : Nat → TsClass L V) (cmpL : L → L → Ordering) (sort : List (Opnd L) → List (Opnd L)) (c : TsSearch L) : Clause V :=
  ⟨c.attnum, (sortAndUniq cmpL sort c.query).map (cls c.attnum).look ++ hiddenLooks (tsMode c.query),
   fun v => (cls c.attnum).consistent (entryOf cmpL (sortAndUniq cmpL sort c.query) (v.take (sortAndUniq cmpL sort c.query).length)) c.query⟩

end Rum.Index
