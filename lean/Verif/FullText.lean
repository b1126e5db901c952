import Verif.Query
import Verif.TsQuery
import Verif.SortUniq
/-!
# Full-text search through the index

What the operator classes for tsvector extract from documents and queries, and how the consistency functions get at what the index found for a
word of the query.
-/
namespace Rum.FullText
open Rum Rum.Codec Rum.Extract Rum.Index Rum.Pos Rum.Ts

variable {L V : Type}

/-- A tsvector: its lexemes, each with its positions if it has any (`haspos`). -/
abbrev TsVector (L : Type) := List (L × Option (List Nat))

/-- An operand of a tsquery: the lexeme and whether it stands for all words that begin with it. -/
structure Opnd (L : Type) where
  lex : L
  pre : Bool
deriving DecidableEq, Repr

/-- rum_extract_tsvector_internal, `/repo/src/rum_ts_utils.c:1140-1192`: one entry per lexeme, the compressed positions as additional info. `build` is
build_tsvector_entry (the lexeme as text) or build_tsvector_hash_entry (its hash), `:1198-1219`. The value is given the way it will be stored (a
short header where possible), which is the same SQL value. -/
def extractTsvector (build : L → V) (a : Attr) (v : TsVector L) : List (Raw V Datum) :=
  v.map (fun w => ⟨some (build w.1), w.2.map (fun ps => Datum.stored a (.varlena .full (compressPos 0 ps)))⟩)

/-- The operands of a query in the order of its items (`QI_VAL`), `/repo/src/rum_ts_utils.c:1096-1105`. -/
def operands {O : Type} : Query O → List O
  | .val o _ => [o]
  | .not q => operands q
  | .and l r | .or l r | .phrase _ l r => operands l ++ operands r

/-- compareQueryOperand, `/repo/src/rum_ts_utils.c:1066-1077`: the lexemes only. -/
def cmpOpnd (cmpL : L → L → Ordering) (a b : Opnd L) : Ordering := cmpL a.lex b.lex

/-- SortAndUniqItems, `/repo/src/rum_ts_utils.c:1086-1131`. `sort` is qsort_arg. -/
def sortAndUniq (cmpL : L → L → Ordering) (sort : List (Opnd L) → List (Opnd L)) (q : Query (Opnd L)) : List (Opnd L) :=
  uniq (cmpOpnd cmpL) (sort (operands q))

/-- map_item_operand: the number of the entry of an operand, `/repo/src/rum_ts_utils.c:1328-1350`. -/
def mapItem (cmpL : L → L → Ordering) (ops : List (Opnd L)) (o : Opnd L) : Option Nat := ops.findIdx? (fun p => cmpOpnd cmpL p o == .eq)

/-- PostgreSQL's tsquery_requires_match, called at `/repo/src/rum_ts_utils.c:1299`: the query cannot match a document with none of its words. Core code,
modelled by assumption. -/
def requiresMatch {O : Type} : Query O → Bool
  | .val _ _ => true
  | .not _ => false
  | .and l r | .phrase _ l r => requiresMatch l || requiresMatch r
  | .or l r => requiresMatch l && requiresMatch r

/-- The bytes of a value of type bytea (`VARDATA_ANY`). -/
def dataBytes : Datum → List Nat
  | .varlena _ p => p
  | _ => []

/-- check[j], addInfo[j] and addInfoIsNull[j] as checkcondition_rum reads them, `/repo/src/rum_ts_utils.c:263-296`. -/
def found : Option (Option Datum) → Stored
  | none => .absent
  | some none => .null
  | some (some d) => .bytes (dataBytes d)

/-- What checkcondition_rum finds for an operand, `/repo/src/rum_ts_utils.c:263-268`. -/
def entryOf (cmpL : L → L → Ordering) (ops : List (Opnd L)) (v : List (Option (Option Datum))) (o : Opnd L) : Stored :=
  found (((mapItem cmpL ops o).bind (fun j => v[j]?)).getD none)

/-- check[j] as pre_checkcondition_rum reads it, `/repo/src/rum_ts_utils.c:199-219`. -/
def checkOf (cmpL : L → L → Ordering) (ops : List (Opnd L)) (v : List Bool) (o : Opnd L) : Bool := ((mapItem cmpL ops o).bind (fun j => v[j]?)).getD false

/-- The condition `column @@ query` for a query without prefix operands that requires a match: rum_extract_tsquery_internal
(`/repo/src/rum_ts_utils.c:1271-1357`), rum_tsquery_consistent (`:876-918`) and rum_tsquery_pre_consistent (`:222-255`). -/
def tsCond (build : L → V) (cmpL : L → L → Ordering) (sort : List (Opnd L) → List (Opnd L)) (attnum : Nat) (q : Query (Opnd L)) : Cond V :=
  ⟨attnum, (sortAndUniq cmpL sort q).map (fun o => build o.lex), fun v => tsConsistent (entryOf cmpL (sortAndUniq cmpL sort q) v) q,
   fun v => preConsistent (checkOf cmpL (sortAndUniq cmpL sort q) v) q⟩

/-- The same for the operator classes that keep the value of another column in the index instead of positions,
rum_tsquery_timestamp_consistent (`/repo/src/rum_ts_utils.c:919-962`). -/
def tsAddonCond (build : L → V) (cmpL : L → L → Ordering) (sort : List (Opnd L) → List (Opnd L)) (attnum : Nat) (q : Query (Opnd L)) : Cond V :=
  ⟨attnum, (sortAndUniq cmpL sort q).map (fun o => build o.lex), fun v => tsTimestampConsistent (entryOf cmpL (sortAndUniq cmpL sort q) v) q,
   fun v => preConsistent (checkOf cmpL (sortAndUniq cmpL sort q) v) q⟩

end Rum.FullText
